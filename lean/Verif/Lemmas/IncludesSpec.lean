import Verif.Lemmas.IncludesBuild
import Verif.Lemmas.PathL

/-!
About the relation between books that differ only in which sections have files of their own.
-/

namespace Booklit

/-! ### Paths -/

theorem splitSlash_joinSlash {ps : List Str} (h : ∀ p ∈ ps, '/' ∉ p) (hne : ps ≠ []) : splitSlash [] (joinSlash ps) = ps := by
  obtain ⟨qs, c, rfl⟩ : ∃ qs c, ps = qs ++ [c] := ⟨ps.dropLast, ps.getLast hne, (List.dropLast_concat_getLast hne).symm⟩
  rw [joinSlash_snoc]
  clear hne
  induction qs with
  | nil =>
    exact splitSlash_plain (cur := []) (h c (by simp))
  | cons q qs ih =>
    have e : trail (q :: qs) ++ c = q ++ '/' :: (trail qs ++ c) := by simp [trail]
    rw [e, splitSlash_cons, ih fun p hp => h p (List.mem_cons_of_mem _ hp), splitSlash_plain (cur := []) (h q (by simp))]
    rfl

theorem cleanPath_idem (s : Str) : cleanPath (cleanPath s) = cleanPath s := by
  have hns := partsOf_noSlash s
  have hnn := partsOf_ne s
  have hid := cleanParts_idem (s.head? == some '/') (splitSlash [] s)
  have e : cleanPath s = if s.head? == some '/' then '/' :: joinSlash (partsOf s) else if joinSlash (partsOf s) = [] then q%"." else joinSlash (partsOf s) := rfl
  rw [e]
  cases hr : s.head? == some '/' with
  | true =>
    rw [hr] at hid
    simp only [if_true]
    rw [cleanPath]
    simp only [List.head?_cons, beq_self_eq_true, if_true, splitSlash, cleanParts_cons, true_or]
    congr 1
    by_cases hp : partsOf s = []
    · rw [hp]; rfl
    · rw [splitSlash_joinSlash hns hp]
      have : partsOf s = cleanParts true [] (splitSlash [] s) := by rw [partsOf, hr]
      rw [this, hid]
  | false =>
    rw [hr] at hid
    simp only [Bool.false_eq_true, if_false]
    by_cases hp : partsOf s = []
    · rw [hp]; decide
    · have hh : (joinSlash (partsOf s)).head? ≠ some '/' ∧ joinSlash (partsOf s) ≠ [] := by
        cases hps : partsOf s with
        | nil => exact (hp hps).elim
        | cons p ps =>
          rw [hps] at hns hnn
          have h1 := hns p (by simp)
          have h2 := hnn p (by simp)
          cases p with
          | nil => exact (h2 rfl).elim
          | cons c p =>
            have : ∃ t, joinSlash ((c :: p) :: ps) = c :: t := by
              cases ps with
              | nil => exact ⟨p, rfl⟩
              | cons q ps => exact ⟨_, rfl⟩
            obtain ⟨t, ht⟩ := this
            rw [ht]
            refine ⟨?_, by simp⟩
            simp only [List.head?_cons, ne_eq, Option.some.injEq]
            intro e
            exact h1 (by simp [e])
      rw [if_neg hh.2, cleanPath]
      have : ((joinSlash (partsOf s)).head? == some '/') = false := by simpa using hh.1
      simp only [this, Bool.false_eq_true, if_false, splitSlash_joinSlash hns hp]
      have e2 : partsOf s = cleanParts false [] (splitSlash [] s) := by rw [partsOf, hr]
      have e3 : cleanParts false [] (partsOf s) = partsOf s := by rw [e2, hid]
      rw [e3, if_neg hh.2]

/-- A file next to another one. -/
theorem dirPath_beside {path g : Str} (hg : Plain g) : dirPath (joinPath (dirPath path) g) = dirPath path := by
  have hne : dirPath path ≠ [] := cleanPath_ne _
  rw [dirPath_joinPath hne hg, dirPath, cleanPath_idem]

/-! ### The relation -/

section
variable {B : Str → Prop} {P P' : Trees}

mutual
theorem Splits.mono : ∀ {D : Str × Str} {e e' : Nat} {n n' : Node}, Splits B P P' D e n n' → e ≤ e' → Splits B P P' D e' n n'
  | _, _, _, _, _, .str, _ => .str
  | _, _, _, _, _, .seq h, he => .seq (SplitsL.mono h he)
  | _, _, _, _, _, .para h, he => .para (SplitsR.mono h he)
  | _, _, _, _, _, .pre h, he => .pre (SplitsR.mono h he)
  | _, _, _, _, _, .invoke hb h, he => .invoke hb (SplitsL.mono h he)
  | _, _, _, _, _, .shared h h' hj hb, _ => .shared h h' hj hb
  | _, _, e' + 1, _, _, .moved h1 h2 h, he => .moved h1 h2 (Splits.mono h (by omega))
  | _, _, e' + 1, _, _, .joined h1 h2 h, he => .joined h1 h2 (Splits.mono h (by omega))
theorem SplitsL.mono : ∀ {D : Str × Str} {e e' : Nat} {n n' : List Node}, SplitsL B P P' D e n n' → e ≤ e' → SplitsL B P P' D e' n n'
  | _, _, _, _, _, .nil, _ => .nil
  | _, _, _, _, _, .cons h hs, he => .cons (Splits.mono h he) (SplitsL.mono hs he)
theorem SplitsR.mono : ∀ {D : Str × Str} {e e' : Nat} {n n' : List (List Node)}, SplitsR B P P' D e n n' → e ≤ e' → SplitsR B P P' D e' n n'
  | _, _, _, _, _, .nil, _ => .nil
  | _, _, _, _, _, .cons h hs, he => .cons (SplitsL.mono h he) (SplitsR.mono hs he)
end

mutual
/-- It can be turned around. -/
theorem Splits.symm : ∀ {D : Str × Str} {e : Nat} {n n' : Node}, Splits B P P' D e n n' → Splits B P' P D.swap e n' n
  | _, _, _, _, .str => .str
  | _, _, _, _, .seq h => .seq (SplitsL.symm h)
  | _, _, _, _, .para h => .para (SplitsR.symm h)
  | _, _, _, _, .pre h => .pre (SplitsR.symm h)
  | _, _, _, _, .invoke hb h => .invoke (fun i => ⟨(hb i).1.symm, (hb i).2⟩) (SplitsL.symm h)
  | _, _, _, _, .shared h h' hj hb => .shared h' h hj.symm (hj ▸ hb)
  | _, _, _, _, .moved h1 h2 h => .joined h1 h2 (Splits.symm h)
  | _, _, _, _, .joined h1 h2 h => .moved h1 h2 (Splits.symm h)
theorem SplitsL.symm : ∀ {D : Str × Str} {e : Nat} {n n' : List Node}, SplitsL B P P' D e n n' → SplitsL B P' P D.swap e n' n
  | _, _, _, _, .nil => .nil
  | _, _, _, _, .cons h hs => .cons (Splits.symm h) (SplitsL.symm hs)
theorem SplitsR.symm : ∀ {D : Str × Str} {e : Nat} {n n' : List (List Node)}, SplitsR B P P' D e n n' → SplitsR B P' P D.swap e n' n
  | _, _, _, _, .nil => .nil
  | _, _, _, _, .cons h hs => .cons (SplitsL.symm h) (SplitsR.symm hs)
end

mutual
/-- A tree that includes only files that both sides have. -/
theorem Splits.same {ok : Str → Bool} {D : Str × Str} (hok : ∀ g, ok g = true → D.1 = D.2 ∧ B (joinPath D.1 g)) (e : Nat) :
    ∀ n : Node, n.includesOnly ok = true → Splits B P P' D e n n
  | .str s => fun _ => .str
  | .seq ns => fun h => .seq (SplitsL.same hok e ns (by simpa [Node.includesOnly] using h))
  | .para ls => fun h => .para (SplitsR.same hok e ls (by simpa [Node.includesOnly] using h))
  | .pre ls => fun h => .pre (SplitsR.same hok e ls (by simpa [Node.includesOnly] using h))
  | .invoke fn as l => fun h => by
    by_cases hf : methodName fn = q%"IncludeSection"
    · rw [Node.includesOnly.eq_def] at h
      simp only [hf, if_true] at h
      split at h
      · simp only [Bool.and_eq_true, beq_iff_eq] at h
        obtain ⟨rfl, h⟩ := h
        exact .shared (.inl rfl) (.inl rfl) (by rw [(hok _ h).1]) (hok _ h).2
      · simp only [Bool.and_eq_true, beq_iff_eq] at h
        obtain ⟨rfl, h⟩ := h
        exact .shared (.inr rfl) (.inr rfl) (by rw [(hok _ h).1]) (hok _ h).2
      · cases h
    · refine .invoke (fun h => (hf h).elim) (SplitsL.same hok e as ?_)
      rw [Node.includesOnly.eq_def] at h
      simpa [hf] using h
theorem SplitsL.same {ok : Str → Bool} {D : Str × Str} (hok : ∀ g, ok g = true → D.1 = D.2 ∧ B (joinPath D.1 g)) (e : Nat) :
    ∀ ns : List Node, includesOnlyL ok ns = true → SplitsL B P P' D e ns ns
  | [] => fun _ => .nil
  | n :: ns => fun h => by
    simp only [includesOnlyL, Bool.and_eq_true] at h
    exact .cons (Splits.same hok e n h.1) (SplitsL.same hok e ns h.2)
theorem SplitsR.same {ok : Str → Bool} {D : Str × Str} (hok : ∀ g, ok g = true → D.1 = D.2 ∧ B (joinPath D.1 g)) (e : Nat) :
    ∀ ls : List (List Node), includesOnlyR ok ls = true → SplitsR B P P' D e ls ls
  | [] => fun _ => .nil
  | l :: ls => fun h => by
    simp only [includesOnlyR, Bool.and_eq_true] at h
    exact .cons (SplitsL.same hok e l h.1) (SplitsR.same hok e ls h.2)
end

mutual
/-- Any tree, if all files are on both sides. -/
theorem Splits.refl {D : Str × Str} (hD : D.1 = D.2) (hB : ∀ path, B path) (e : Nat) : ∀ n : Node, Splits B P P' D e n n
  | .str _ => .str
  | .seq ns => .seq (SplitsL.refl hD hB e ns)
  | .para ls => .para (SplitsR.refl hD hB e ls)
  | .pre ls => .pre (SplitsR.refl hD hB e ls)
  | .invoke _ as _ => .invoke (fun _ => ⟨hD, hB⟩) (SplitsL.refl hD hB e as)
theorem SplitsL.refl {D : Str × Str} (hD : D.1 = D.2) (hB : ∀ path, B path) (e : Nat) : ∀ ns : List Node, SplitsL B P P' D e ns ns
  | [] => .nil
  | n :: ns => .cons (Splits.refl hD hB e n) (SplitsL.refl hD hB e ns)
theorem SplitsR.refl {D : Str × Str} (hD : D.1 = D.2) (hB : ∀ path, B path) (e : Nat) : ∀ ls : List (List Node), SplitsR B P P' D e ls ls
  | [] => .nil
  | l :: ls => .cons (SplitsL.refl hD hB e l) (SplitsR.refl hD hB e ls)
end

theorem SplitsL.append {D : Str × Str} {e : Nat} {a a' b b' : List Node} (h : SplitsL B P P' D e a a') (hs : SplitsL B P P' D e b b') :
    SplitsL B P P' D e (a ++ b) (a' ++ b') := by
  induction a generalizing a' with
  | nil => cases h; exact hs
  | cons n ns ih => cases h with | cons h1 h2 => exact .cons h1 (ih h2)

/-- The other way round. -/
theorem FilesSplit.symm {E : Nat} (h : FilesSplit E B P P') (hb : ∀ path t', B path → P' path = some (.ok t') → ∃ t, P path = some (.ok t)) :
    FilesSplit E B P' P := by
  intro path t' hB ht'
  obtain ⟨t, ht⟩ := hb path t' hB ht'
  obtain ⟨t2, h1, h2⟩ := h path t hB ht
  rw [ht'] at h1
  cases h1
  exact ⟨t, ht, h2.symm⟩

end

end Booklit
