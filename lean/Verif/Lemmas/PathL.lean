import Verif.Model.Path

/-! Facts about file paths. -/

namespace Booklit

theorem splitSlash_cons (cur a b : Str) : splitSlash cur (a ++ '/' :: b) = splitSlash cur a ++ splitSlash [] b := by
  induction a generalizing cur with
  | nil => simp [splitSlash]
  | cons c a ih =>
    simp only [List.cons_append, splitSlash]
    split
    · rw [ih]; rfl
    · rw [ih]

theorem splitSlash_plain {cur b : Str} (h : '/' ∉ b) : splitSlash cur b = [cur ++ b] := by
  induction b generalizing cur with
  | nil => simp [splitSlash]
  | cons c b ih =>
    have hc : c ≠ '/' := fun e => h (by simp [e])
    rw [splitSlash, if_neg hc, ih fun hm => h (List.mem_cons_of_mem _ hm)]
    simp

theorem splitSlash_noSlash {cur s : Str} (hc : '/' ∉ cur) : ∀ p ∈ splitSlash cur s, '/' ∉ p := by
  induction s generalizing cur with
  | nil => intro p hp; simp [splitSlash] at hp; subst hp; exact hc
  | cons c s ih =>
    intro p hp
    rw [splitSlash] at hp
    split at hp
    · rcases List.mem_cons.1 hp with rfl | hp
      · exact hc
      · exact ih (by simp) p hp
    · next hne =>
      refine ih (cur := cur ++ [c]) ?_ p hp
      simp [hc]
      exact fun e => hne e.symm

theorem cleanParts_cons (r : Bool) (out : List Str) (p : Str) (ps : List Str) : cleanParts r out (p :: ps) =
    if p = [] ∨ p = q%"." then cleanParts r out ps
    else if p = q%".." then
      match out with
      | o :: out' => if o = q%".." then cleanParts r (q%".." :: out) ps else cleanParts r out' ps
      | [] => if r then cleanParts r [] ps else cleanParts r [q%".."] ps
    else cleanParts r (p :: out) ps := by
  cases out <;> rfl

theorem cleanParts_mem {r : Bool} {out ps : List Str} : ∀ p ∈ cleanParts r out ps, p ∈ out ∨ p ∈ ps ∨ p = q%".." := by
  induction ps generalizing out with
  | nil => intro p hp; simp [cleanParts] at hp; exact .inl hp
  | cons x ps ih =>
    intro p hp
    have key : ∀ out', (∀ y ∈ out', y ∈ out ∨ y = x ∨ y = q%"..") → p ∈ cleanParts r out' ps → p ∈ out ∨ p ∈ x :: ps ∨ p = q%".." := by
      intro out' h1 h2
      rcases ih p h2 with h | h | h
      · rcases h1 p h with h | h | h
        · exact .inl h
        · exact .inr (.inl (by simp [h]))
        · exact .inr (.inr h)
      · exact .inr (.inl (List.mem_cons_of_mem _ h))
      · exact .inr (.inr h)
    rw [cleanParts_cons] at hp
    split at hp
    · exact key out (fun y hy => .inl hy) hp
    · split at hp
      · split at hp
        · split at hp
          · refine key _ (fun y hy => ?_) hp
            rcases List.mem_cons.1 hy with h | h
            · exact .inr (.inr h)
            · exact .inl h
          · exact key _ (fun y hy => .inl (List.mem_cons_of_mem _ hy)) hp
        · split at hp
          · exact key _ (fun y hy => by cases hy) hp
          · refine key _ (fun y hy => ?_) hp
            simp at hy
            exact .inr (.inr hy)
      · refine key _ (fun y hy => ?_) hp
        rcases List.mem_cons.1 hy with h | h
        · exact .inr (.inl h)
        · exact .inl h

/-- A part that `Clean` keeps. -/
def Plain (c : Str) : Prop := '/' ∉ c ∧ c ≠ [] ∧ c ≠ q%"." ∧ c ≠ q%".."

theorem cleanParts_snoc {r : Bool} {c : Str} (hc : Plain c) (out ps : List Str) :
    cleanParts r out (ps ++ [c]) = cleanParts r out ps ++ [c] := by
  induction ps generalizing out with
  | nil =>
    obtain ⟨-, h1, h2, h3⟩ := hc
    simp [cleanParts, h1, h2, h3]
  | cons p ps ih =>
    simp only [List.cons_append]
    rw [cleanParts_cons, cleanParts_cons]
    split
    · exact ih _
    · split
      · split
        · split <;> exact ih _
        · split <;> exact ih _
      · exact ih _

theorem cleanParts_empty {r : Bool} (out ps : List Str) : cleanParts r out (ps ++ [[]]) = cleanParts r out ps := by
  induction ps generalizing out with
  | nil => simp [cleanParts]
  | cons p ps ih =>
    simp only [List.cons_append]
    rw [cleanParts_cons, cleanParts_cons]
    split
    · exact ih _
    · split
      · split
        · split <;> exact ih _
        · split <;> exact ih _
      · exact ih _

/-- Cleaned parts, last one first. -/
def GoodParts (r : Bool) : List Str → Prop
  | [] => True
  | o :: out => o ≠ [] ∧ o ≠ q%"." ∧ (o = q%".." → r = false ∧ ∀ x ∈ out, x = q%"..") ∧ GoodParts r out

theorem GoodParts.drop {r : Bool} {a b : List Str} (h : GoodParts r (a ++ b)) : GoodParts r b := by
  induction a with
  | nil => exact h
  | cons x a ih => exact ih h.2.2.2

theorem cleanParts_good {r : Bool} {out ps : List Str} (h : GoodParts r out) : GoodParts r (cleanParts r out ps).reverse := by
  induction ps generalizing out with
  | nil => simpa [cleanParts] using h
  | cons p ps ih =>
    rw [cleanParts_cons]
    split
    · exact ih h
    · next hp =>
      split
      · next hdd =>
        split
        · next o out' =>
          split
          · next ho =>
            subst ho
            refine ih ⟨by decide, by decide, fun _ => ?_, h⟩
            have h3 := h.2.2.1 rfl
            refine ⟨h3.1, fun x hx => ?_⟩
            rcases List.mem_cons.1 hx with rfl | hx
            · rfl
            · exact h3.2 x hx
          · exact ih h.2.2.2
        · split
          · exact ih trivial
          · next hr => exact ih ⟨by decide, by decide, fun _ => ⟨by simpa using hr, by simp⟩, trivial⟩
      · next hdd => exact ih ⟨fun e => hp (.inl e), fun e => hp (.inr e), fun e => (hdd e).elim, h⟩

theorem cleanParts_of_good {r : Bool} {out ps : List Str} (h : GoodParts r (ps.reverse ++ out)) :
    cleanParts r out ps = out.reverse ++ ps := by
  induction ps generalizing out with
  | nil => simp [cleanParts]
  | cons p ps ih =>
    have h' : GoodParts r (ps.reverse ++ (p :: out)) := by simpa using h
    have hp := h'.drop
    obtain ⟨h1, h2, h3, h4⟩ := hp
    have hgo := ih h'
    rw [cleanParts_cons, if_neg (by rintro (e | e); exact h1 e; exact h2 e)]
    split
    · next hdd =>
      obtain ⟨hr, hall⟩ := h3 hdd
      split
      · next o out' =>
        have : o = q%".." := hall o (by simp)
        rw [if_pos this, ← hdd, hgo]
        simp
      · rw [if_neg (by simp [hr]), ← hdd, hgo]
        simp
    · rw [hgo]; simp

theorem cleanParts_idem (r : Bool) (ps : List Str) : cleanParts r [] (cleanParts r [] ps) = cleanParts r [] ps := by
  have := cleanParts_of_good (r := r) (out := []) (ps := cleanParts r [] ps) (by
    rw [List.append_nil]; exact cleanParts_good trivial)
  simpa using this

/-- Parts each followed by a slash. -/
def trail (ps : List Str) : Str := ps.flatMap (· ++ ['/'])

theorem joinSlash_snoc (ps : List Str) (c : Str) : joinSlash (ps ++ [c]) = trail ps ++ c := by
  induction ps with
  | nil => simp [joinSlash, trail]
  | cons p ps ih =>
    cases ps with
    | nil => simp [joinSlash, trail]
    | cons q ps =>
      simp only [List.cons_append] at ih ⊢
      rw [joinSlash, ih]
      simp [trail]

theorem splitSlash_trail {ps : List Str} (h : ∀ p ∈ ps, '/' ∉ p) : splitSlash [] (trail ps) = ps ++ [[]] := by
  induction ps with
  | nil => simp [trail, splitSlash]
  | cons p ps ih =>
    have : trail (p :: ps) = p ++ '/' :: trail ps := by simp [trail]
    rw [this, splitSlash_cons, ih fun q hq => h q (List.mem_cons_of_mem _ hq), splitSlash_plain (h p (by simp))]
    simp

/-- The cleaned parts of a path. -/
def partsOf (s : Str) : List Str := cleanParts (s.head? == some '/') [] (splitSlash [] s)

theorem partsOf_noSlash (s : Str) : ∀ p ∈ partsOf s, '/' ∉ p := by
  intro p hp
  rcases cleanParts_mem p hp with h | h | h
  · cases h
  · exact splitSlash_noSlash (by simp) p h
  · subst h; decide

theorem partsOf_ne (s : Str) : ∀ p ∈ partsOf s, p ≠ [] := by
  intro p hp
  have hg : GoodParts (s.head? == some '/') (partsOf s).reverse := cleanParts_good trivial
  have hm : p ∈ (partsOf s).reverse := by simpa using hp
  generalize (partsOf s).reverse = l at hg hm
  induction l with
  | nil => cases hm
  | cons o l ih =>
    rcases List.mem_cons.1 hm with rfl | hm
    · exact hg.1
    · exact ih hg.2.2.2 hm

/-- The slash at the start of a rooted path. -/
def rootOf (s : Str) : Str := if s.head? == some '/' then ['/'] else []

/-- Joining a directory and a plain name. -/
theorem joinPath_plain {dest c : Str} (hd : dest ≠ []) (hc : Plain c) :
    joinPath dest c = rootOf dest ++ trail (partsOf dest) ++ c := by
  have hhead : (dest ++ '/' :: c).head? = dest.head? := by
    cases dest with
    | nil => exact (hd rfl).elim
    | cons d ds => rfl
  have hne : trail (partsOf dest) ++ c ≠ [] := by
    intro e
    exact hc.2.1 (List.append_eq_nil_iff.1 e).2
  rw [joinPath, if_pos hd, cleanPath]
  simp only [hhead, splitSlash_cons, splitSlash_plain hc.1, List.nil_append, cleanParts_snoc hc, joinSlash_snoc]
  unfold rootOf
  split
  · rfl
  · unfold partsOf at hne; rw [if_neg hne]; rfl

/-- The directory of a path that ends in a plain name. -/
theorem dirPath_plain {pre c : Str} (hc : '/' ∉ c) (hpre : pre = [] ∨ ∃ q, pre = q ++ ['/']) : dirPath (pre ++ c) = cleanPath pre := by
  unfold dirPath
  congr 1
  rw [List.reverse_append]
  have : ∀ l : Str, '/' ∉ l → ∀ r : Str, (l ++ r).dropWhile (· != '/') = r.dropWhile (· != '/') := by
    intro l
    induction l with
    | nil => intro _ r; rfl
    | cons x l ih =>
      intro hl r
      have hx : (x != '/') = true := by
        simp
        intro e
        exact hl (by simp [e])
      simp only [List.cons_append, List.dropWhile_cons, hx, if_true]
      exact ih (fun hm => hl (List.mem_cons_of_mem _ hm)) r
  rw [this _ (by simpa using hc)]
  rcases hpre with rfl | ⟨q, rfl⟩
  · rfl
  · simp

theorem trail_end (ps : List Str) : trail ps = [] ∨ ∃ q, trail ps = q ++ ['/'] := by
  rcases List.eq_nil_or_concat ps with rfl | ⟨l, p, rfl⟩
  · exact .inl rfl
  · exact .inr ⟨trail l ++ p, by simp [trail]⟩

theorem joinSlash_eq_nil {ps : List Str} (h : ∀ p ∈ ps, p ≠ []) : joinSlash ps = [] ↔ ps = [] := by
  match ps with
  | [] => simp [joinSlash]
  | [p] => simp [joinSlash]; exact h p (by simp)
  | p :: q :: ps => simp [joinSlash]

/-- A plain name joined to a directory is in this directory. -/
theorem dirPath_joinPath {dest c : Str} (hd : dest ≠ []) (hc : Plain c) : dirPath (joinPath dest c) = cleanPath dest := by
  have hnp := partsOf_noSlash dest
  have hnn := partsOf_ne dest
  rw [joinPath_plain hd hc]
  have hend : rootOf dest ++ trail (partsOf dest) = [] ∨ ∃ q, rootOf dest ++ trail (partsOf dest) = q ++ ['/'] := by
    rcases trail_end (partsOf dest) with h | ⟨q, h⟩
    · rw [h, rootOf]
      split
      · exact .inr ⟨[], rfl⟩
      · exact .inl rfl
    · exact .inr ⟨rootOf dest ++ q, by rw [h]; simp⟩
  rw [dirPath_plain hc.1 hend]
  by_cases hr : dest.head? == some '/'
  · have hroot : rootOf dest = ['/'] := by rw [rootOf, if_pos hr]
    rw [hroot, cleanPath, cleanPath]
    simp only [List.cons_append, List.nil_append, List.head?_cons, beq_self_eq_true, if_true, hr, splitSlash,
      splitSlash_trail hnp]
    have h1 : cleanParts true [] ([] :: (partsOf dest ++ [[]])) = partsOf dest := by
      rw [cleanParts_cons, if_pos (.inl rfl), cleanParts_empty]
      have := cleanParts_idem (dest.head? == some '/') (splitSlash [] dest)
      rw [hr] at this
      have hp : partsOf dest = cleanParts true [] (splitSlash [] dest) := by rw [partsOf, hr]
      rw [hp]
      exact this
    rw [h1]
    congr 2
    rw [partsOf, hr]
  · have hr' : (dest.head? == some '/') = false := by simpa using hr
    have hroot : rootOf dest = [] := by rw [rootOf, if_neg hr]
    have hhead : ((trail (partsOf dest)).head? == some '/') = false := by
      cases hp : partsOf dest with
      | nil => rfl
      | cons p ps =>
        have h1 := hnp p (by rw [hp]; simp)
        have h2 := hnn p (by rw [hp]; simp)
        cases p with
        | nil => exact (h2 rfl).elim
        | cons x p =>
          simp [trail]
          intro e
          exact h1 (by simp [e])
    rw [hroot, List.nil_append, cleanPath, cleanPath]
    simp only [hhead, hr', splitSlash_trail hnp, cleanParts_empty]
    have hp : partsOf dest = cleanParts false [] (splitSlash [] dest) := by rw [partsOf, hr']
    have h1 : cleanParts false [] (partsOf dest) = cleanParts false [] (splitSlash [] dest) := by
      rw [hp]; exact cleanParts_idem false _
    rw [h1]

theorem joinPath_inj {dest c c' : Str} (hd : dest ≠ []) (hc : Plain c) (hc' : Plain c')
    (h : joinPath dest c = joinPath dest c') : c = c' := by
  rw [joinPath_plain hd hc, joinPath_plain hd hc'] at h
  exact List.append_cancel_left h

end Booklit
