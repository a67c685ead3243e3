import Verif.Spec.Versions

/-! Invariants of the concurrent cache. -/

namespace Booklit.Cache

open Booklit

theorem set_same {α β : Type} [DecidableEq α] (f : α → β) (a : α) (b : β) : set f a b a = b := by simp [set]

theorem set_other {α β : Type} [DecidableEq α] (f : α → β) {a x : α} (b : β) (h : x ≠ a) : set f a b x = f x := by
  simp [set, h]

/-- Files only gain versions. -/
theorem step_disk {s s' : Sys} {a : Action} (h : step s a = some s') (p : Str) : s.disk p <:+ s'.disk p := by
  cases a with
  | edit path info =>
    simp only [step, Option.some.injEq] at h
    subst h
    by_cases hp : p = path
    · subst hp; simp [set]
    · simp [set, hp]
  | remove path =>
    simp only [step, Option.some.injEq] at h
    subst h
    exact List.suffix_refl _
  | stat id path =>
    simp only [step] at h
    split at h <;> simp at h
    subst h
    exact List.suffix_refl _
  | look id =>
    simp only [step] at h
    split at h
    · split at h <;> (simp at h; subst h; exact List.suffix_refl _)
    · simp at h
  | read id =>
    simp only [step] at h
    split at h <;> simp at h
    subst h
    exact List.suffix_refl _
  | giveUp id =>
    simp only [step] at h
    split at h <;> simp at h
    subst h
    exact List.suffix_refl _
  | store id =>
    simp only [step] at h
    split at h <;> simp at h
    subst h
    exact List.suffix_refl _

theorem run_disk {s s' : Sys} {as : List Action} (h : run s as = some s') (p : Str) : s.disk p <:+ s'.disk p := by
  induction as generalizing s with
  | nil => simp only [run, Option.some.injEq] at h; subst h; exact List.suffix_refl _
  | cons a as ih =>
    simp only [run] at h
    split at h
    · next s1 h1 => exact (step_disk h1 p).trans (ih h)
    · simp at h

theorem Increasing.suffix {xs ys : List FileInfo} (h : Increasing ys) (hs : xs <:+ ys) : Increasing xs :=
  List.Pairwise.sublist hs.sublist h

/-- Some version at least as new as `m` parses to `n`. -/
def Fresh (s : Sys) (p : Str) (m : Nat) (n : Node) : Prop := ∃ w ∈ s.disk p, m ≤ w.mtime ∧ parseFile p w = .ok n

/-- `m` is no newer than the current version. -/
def Seen (s : Sys) (p : Str) (m : Nat) : Prop := ∃ w ∈ s.disk p, m ≤ w.mtime

def LoaderOk (s : Sys) : Loader → Prop
  | .idle => True
  | .statted p m => Seen s p m
  | .missed p m => Seen s p m
  | .has p m n => Fresh s p m n
  | .finished p m n => Fresh s p m n
  | .failed => True

structure Inv (s : Sys) : Prop where
  cache : ∀ p n t, (p, n, t) ∈ s.cache → Fresh s p t n
  loaders : ∀ id, LoaderOk s (s.loaders id)

theorem Inv.init : Inv Sys.init := ⟨fun _ _ _ h => (by cases h), fun _ => trivial⟩

theorem Fresh.mono {s s' : Sys} (h : ∀ p, s.disk p <:+ s'.disk p) {p : Str} {m : Nat} {n : Node} (hf : Fresh s p m n) :
    Fresh s' p m n := by
  obtain ⟨w, hw, h1⟩ := hf
  exact ⟨w, (h p).subset hw, h1⟩

theorem LoaderOk.mono {s s' : Sys} (h : ∀ p, s.disk p <:+ s'.disk p) {l : Loader} (hl : LoaderOk s l) :
    LoaderOk s' l := by
  cases l with
  | idle => trivial
  | failed => trivial
  | statted p m => obtain ⟨w, hw, h1⟩ := hl; exact ⟨w, (h p).subset hw, h1⟩
  | missed p m => obtain ⟨w, hw, h1⟩ := hl; exact ⟨w, (h p).subset hw, h1⟩
  | has p m n => exact Fresh.mono h hl
  | finished p m n => exact Fresh.mono h hl

/-- In an increasing history the head is the newest. -/
theorem Seen.head {s : Sys} {p : Str} {m : Nat} (h : Seen s p m) {v : FileInfo} {old : List FileInfo}
    (hd : s.disk p = v :: old) (hi : Increasing (s.disk p)) : m ≤ v.mtime := by
  obtain ⟨w, hw, h1⟩ := h
  rw [hd] at hw hi
  rcases List.mem_cons.1 hw with rfl | hw
  · exact h1
  · have := (List.pairwise_cons.1 hi).1 w hw
    omega

/-- Replacing one loader. -/
theorem Inv.setLoader {s : Sys} (h : Inv s) (id : Nat) {l : Loader} (hl : LoaderOk s l) :
    Inv { s with loaders := set s.loaders id l } := by
  refine ⟨h.cache, fun j => ?_⟩
  show LoaderOk _ (set s.loaders id l j)
  by_cases hj : j = id
  · subst hj; rw [set_same]; exact LoaderOk.mono (s := s) (fun _ => List.suffix_refl _) hl
  · rw [set_other _ _ hj]; exact LoaderOk.mono (s := s) (fun _ => List.suffix_refl _) (h.loaders j)

theorem cached_mem {cache : List (Str × Node × Nat)} {p : Str} {m : Nat} {n : Node} (h : cached cache p m = some n) :
    ∃ t, (p, n, t) ∈ cache ∧ m ≤ t := by
  unfold cached at h
  split at h
  · next n' t hl =>
    split at h
    · next hle =>
      simp only [Option.some.injEq] at h
      subst h
      refine ⟨t, ?_, hle⟩
      clear hle
      induction cache with
      | nil => simp at hl
      | cons e es ih =>
        obtain ⟨q, x⟩ := e
        simp only [List.lookup_cons] at hl
        split at hl
        · next hq =>
          simp only [Option.some.injEq] at hl
          have : p = q := by simpa using hq
          subst this; subst hl
          exact List.mem_cons_self
        · exact List.mem_cons_of_mem _ (ih hl)
    · simp at h
  · simp at h

theorem Inv.step {s s' : Sys} {a : Action} (h : Inv s) (hs : step s a = some s')
    (hi : ∀ p, Increasing (s.disk p)) : Inv s' := by
  cases a with
  | edit path info =>
    have hd := step_disk hs
    simp only [Cache.step, Option.some.injEq] at hs
    subst hs
    exact ⟨fun p n t hm => Fresh.mono hd (h.cache p n t hm), fun id => LoaderOk.mono hd (h.loaders id)⟩
  | remove path =>
    have hd := step_disk hs
    simp only [Cache.step, Option.some.injEq] at hs
    subst hs
    exact ⟨fun p n t hm => Fresh.mono hd (h.cache p n t hm), fun id => LoaderOk.mono hd (h.loaders id)⟩
  | stat id path =>
    simp only [Cache.step] at hs
    split at hs
    · simp only [Option.some.injEq] at hs
      subst hs
      apply h.setLoader
      unfold Sys.statted
      split
      · next v old hv =>
        split
        · exact ⟨v, by rw [hv]; exact List.mem_cons_self, Nat.le_refl _⟩
        · trivial
      · trivial
    · simp at hs
  | look id =>
    simp only [Cache.step] at hs
    split at hs
    · next path mtime hl =>
      have hok := h.loaders id
      rw [hl] at hok
      split at hs
      · next node hc =>
        simp only [Option.some.injEq] at hs
        subst hs
        apply h.setLoader
        obtain ⟨t, hm, hle⟩ := cached_mem hc
        obtain ⟨w, hw, h1, h2⟩ := h.cache _ _ _ hm
        exact ⟨w, hw, Nat.le_trans hle h1, h2⟩
      · simp only [Option.some.injEq] at hs
        subst hs
        exact h.setLoader _ hok
    · simp at hs
  | read id =>
    simp only [Cache.step] at hs
    split at hs
    · next path mtime hl =>
      have hok : Seen s path mtime := by
        have := h.loaders id
        rw [hl] at this
        exact this
      simp only [Option.some.injEq] at hs
      subst hs
      apply h.setLoader
      unfold Sys.parsed
      split
      · next v old hv =>
        split
        · split
          · next node hn =>
            exact ⟨v, by rw [hv]; exact List.mem_cons_self, hok.head hv (hi path), hn⟩
          · trivial
        · trivial
      · trivial
    · simp at hs
  | giveUp id =>
    simp only [Cache.step] at hs
    split at hs
    · simp only [Option.some.injEq] at hs
      subst hs
      exact h.setLoader _ trivial
    · simp at hs
  | store id =>
    simp only [Cache.step] at hs
    split at hs
    · next path mtime node hl =>
      have hok : Fresh s path mtime node := by
        have := h.loaders id
        rw [hl] at this
        exact this
      simp only [Option.some.injEq] at hs
      subst hs
      have := h.setLoader id (l := .finished path mtime node) hok
      refine ⟨fun p n t hm => ?_, this.loaders⟩
      simp only [remember, List.mem_cons, Prod.mk.injEq] at hm
      rcases hm with ⟨rfl, rfl, rfl⟩ | hm
      · exact hok
      · exact h.cache p n t (List.mem_filter.1 hm).1
    · simp at hs

theorem Inv.run {s s' : Sys} {as : List Action} (h : Inv s) (hs : run s as = some s')
    (hi : ∀ p, Increasing (s'.disk p)) : Inv s' := by
  induction as generalizing s with
  | nil => simp only [Cache.run, Option.some.injEq] at hs; subst hs; exact h
  | cons a as ih =>
    simp only [Cache.run] at hs
    split at hs
    · next s1 h1 =>
      exact ih (h.step h1 fun p => (hi p).suffix ((step_disk h1 p).trans (run_disk hs p))) hs
    · simp at hs

/-- What a loader that began with this file and time can still become. -/
def Began (p : Str) (m : Nat) : Loader → Prop
  | .idle => False
  | .statted q t => q = p ∧ t = m
  | .missed q t => q = p ∧ t = m
  | .has q t _ => q = p ∧ t = m
  | .finished q t _ => q = p ∧ t = m
  | .failed => True

theorem Began.step {s s' : Sys} {a : Action} {id : Nat} {p : Str} {m : Nat} (h : Began p m (s.loaders id))
    (hs : step s a = some s') : Began p m (s'.loaders id) := by
  have other : ∀ (j : Nat) (l : Loader), (j = id → Began p m l) → Began p m (set s.loaders j l id) := by
    intro j l hl
    by_cases hj : id = j
    · subst hj; rw [set_same]; exact hl rfl
    · rw [set_other _ _ hj]; exact h
  cases a with
  | edit path info => simp only [Cache.step, Option.some.injEq] at hs; subst hs; exact h
  | remove path => simp only [Cache.step, Option.some.injEq] at hs; subst hs; exact h
  | stat j path =>
    simp only [Cache.step] at hs
    split at hs
    · next hl =>
      simp only [Option.some.injEq] at hs
      subst hs
      refine other j _ fun e => ?_
      subst e
      rw [hl] at h
      exact h.elim
    · simp at hs
  | look j =>
    simp only [Cache.step] at hs
    split at hs
    · next path mtime hl =>
      split at hs <;>
      · simp only [Option.some.injEq] at hs
        subst hs
        refine other j _ fun e => ?_
        subst e
        rw [hl] at h
        exact h
    · simp at hs
  | read j =>
    simp only [Cache.step] at hs
    split at hs
    · next path mtime hl =>
      simp only [Option.some.injEq] at hs
      subst hs
      refine other j _ fun e => ?_
      subst e
      rw [hl] at h
      unfold Sys.parsed
      split
      · split
        · split
          · exact h
          · trivial
        · trivial
      · trivial
    · simp at hs
  | giveUp j =>
    simp only [Cache.step] at hs
    split at hs
    · simp only [Option.some.injEq] at hs
      subst hs
      exact other j _ fun _ => trivial
    · simp at hs
  | store j =>
    simp only [Cache.step] at hs
    split at hs
    · next path mtime node hl =>
      simp only [Option.some.injEq] at hs
      subst hs
      refine other j _ fun e => ?_
      subst e
      rw [hl] at h
      exact h
    · simp at hs

theorem Began.run {s s' : Sys} {as : List Action} {id : Nat} {p : Str} {m : Nat} (h : Began p m (s.loaders id))
    (hs : run s as = some s') : Began p m (s'.loaders id) := by
  induction as generalizing s with
  | nil => simp only [Cache.run, Option.some.injEq] at hs; subst hs; exact h
  | cons a as ih =>
    simp only [Cache.run] at hs
    split at hs
    · next s1 h1 => exact ih (h.step h1) hs
    · simp at hs

theorem run_append {s : Sys} {as bs : List Action} {s1 s2 : Sys} (h1 : run s as = some s1) (h2 : run s1 bs = some s2) :
    run s (as ++ bs) = some s2 := by
  induction as generalizing s with
  | nil => simp only [run, Option.some.injEq] at h1; subst h1; exact h2
  | cons a as ih =>
    simp only [run, List.cons_append] at h1 ⊢
    split at h1
    · next s' hs => exact ih h1
    · simp at h1

end Booklit.Cache
