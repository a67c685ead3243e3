import Verif.Model.Lazy

/-! Invariants of concurrent `Force`. -/

namespace Booklit.Lazy

variable {V : Type}

/-- Is this step a call of the generator? -/
def Action.isCall : Action V → Bool
  | .call _ => true
  | _ => false

/-- How often the generator has been called. -/
def calls (as : List (Action V)) : Nat := (as.filter Action.isCall).length

/-- What the generator did: it returned `v`, or it panicked and `v` is the initial value. -/
def Outcome (nil : V) (as : List (Action V)) (v : V) : Prop :=
  (∃ id, .yield id v ∈ as) ∨ (v = nil ∧ ∃ id, .panic id ∈ as)

def Caller.inside : Caller V → Bool
  | .locked | .running | .assigned | .panicking | .marked | .markedPanic => true
  | _ => false

/-- Has not got past the second check. -/
def Caller.early : Caller V → Bool
  | .idle | .waiting | .locked => true
  | _ => false

/-- Busy with the generator. -/
def Caller.busy : Caller V → Bool
  | .running | .assigned | .panicking => true
  | _ => false

inductive Phase (nil : V) (as : List (Action V)) (s : Sys V) : Prop where
  | fresh (d : s.done = false) (c : calls as = 0) (r : s.result = nil) (e : ∀ i, (s.callers i).early = true)
  | busy (i : Nat) (d : s.done = false) (c : calls as = 1) (b : (s.callers i).busy = true)
      (r : s.callers i = .running → s.result = nil)
      (o : s.callers i ≠ .running → Outcome nil as s.result)
      (e : ∀ j, j ≠ i → (s.callers j).early = true)
  | over (d : s.done = true) (c : calls as = 1) (o : Outcome nil as s.result)
      (b : ∀ i, (s.callers i).busy = false) (r : ∀ i v, s.callers i = .returned v → v = s.result)

structure Inv (nil : V) (as : List (Action V)) (s : Sys V) : Prop where
  mutex : ∀ i, (s.callers i).inside = true ↔ s.mutex = some i
  phase : Phase nil as s

theorem Inv.init (nil : V) : Inv nil [] (Sys.init nil) :=
  ⟨fun i => by simp [Sys.init, Caller.inside], .fresh rfl rfl rfl fun _ => rfl⟩

theorem calls_snoc (as : List (Action V)) (a : Action V) : calls (as ++ [a]) = calls as + if a.isCall then 1 else 0 := by
  simp only [calls, List.filter_append, List.length_append]
  cases h : a.isCall <;> simp [h]

theorem Outcome.snoc {nil : V} {as : List (Action V)} {v : V} (h : Outcome nil as v) (a : Action V) :
    Outcome nil (as ++ [a]) v := by
  rcases h with ⟨i, h⟩ | ⟨e, i, h⟩
  · exact .inl ⟨i, List.mem_append_left _ h⟩
  · exact .inr ⟨e, i, List.mem_append_left _ h⟩

theorem goto_same (s : Sys V) (id : Nat) (c : Caller V) : (s.goto id c).callers id = c := by simp [Sys.goto]

theorem goto_other (s : Sys V) {id j : Nat} (c : Caller V) (h : j ≠ id) : (s.goto id c).callers j = s.callers j := by
  simp [Sys.goto, h]

/-- The mutex part, when the step neither takes nor frees it. -/
theorem mutex_goto {s : Sys V} (h : ∀ i, (s.callers i).inside = true ↔ s.mutex = some i) {id : Nat} {c : Caller V}
    (hc : c.inside = (s.callers id).inside) (i : Nat) :
    ((s.goto id c).callers i).inside = true ↔ s.mutex = some i := by
  by_cases hi : i = id
  · subst hi; rw [goto_same, hc]; exact h i
  · rw [goto_other _ _ hi]; exact h i

theorem busy_inside {c : Caller V} (h : c.busy = true) : c.inside = true := by
  cases c <;> simp_all [Caller.busy, Caller.inside]

theorem Inv.step {nil : V} {as : List (Action V)} {s s' : Sys V} {a : Action V} (h : Inv nil as s)
    (hs : step s a = some s') : Inv nil (as ++ [a]) s' := by
  obtain ⟨hm, hp⟩ := h
  cases a with
  | check id =>
    simp only [Lazy.step] at hs
    split at hs <;> simp at hs
    next hl =>
    subst hs
    refine ⟨mutex_goto hm (by rw [hl]; cases s.done <;> rfl), ?_⟩
    cases hp with
    | fresh d c r e =>
      refine .fresh d (by rw [calls_snoc]; simp [c, Action.isCall]) r fun i => ?_
      by_cases hi : i = id
      · subst hi; rw [goto_same, d]; rfl
      · rw [goto_other _ _ hi]; exact e i
    | busy j d c b r o e =>
      have hj : j ≠ id := by rintro rfl; rw [hl] at b; simp [Caller.busy] at b
      refine .busy j d (by rw [calls_snoc]; simp [c, Action.isCall]) (by rw [goto_other _ _ hj]; exact b)
        (by rw [goto_other _ _ hj]; exact r) (by rw [goto_other _ _ hj]; exact fun x => (o x).snoc _) fun i hi' => ?_
      by_cases hi : i = id
      · subst hi; rw [goto_same, d]; rfl
      · rw [goto_other _ _ hi]; exact e i hi'
    | over d c o b r =>
      refine .over d (by rw [calls_snoc]; simp [c, Action.isCall]) (o.snoc _) (fun i => ?_) fun i v hv => ?_
      · by_cases hi : i = id
        · subst hi; rw [goto_same, d]; rfl
        · rw [goto_other _ _ hi]; exact b i
      · by_cases hi : i = id
        · subst hi; rw [goto_same, d] at hv; simp at hv
        · rw [goto_other _ _ hi] at hv; exact r i v hv
  | lock id =>
    simp only [Lazy.step] at hs
    split at hs <;> simp at hs
    next hl hmx =>
    subst hs
    have hout : ∀ i, (s.callers i).inside = false := fun i => by
      cases hx : (s.callers i).inside with
      | false => rfl
      | true => have := (hm i).1 hx; rw [hmx] at this; simp at this
    refine ⟨fun i => ?_, ?_⟩
    · show ((s.goto id .locked).callers i).inside = true ↔ some id = some i
      by_cases hi : i = id
      · subst hi; rw [goto_same]; simp [Caller.inside]
      · rw [goto_other _ _ hi, hout i]; simp; exact fun e => hi e.symm
    · cases hp with
      | fresh d c r e =>
        refine .fresh d (by rw [calls_snoc]; simp [c, Action.isCall]) r fun i => ?_
        show ((s.goto id .locked).callers i).early = true
        by_cases hi : i = id
        · subst hi; rw [goto_same]; rfl
        · rw [goto_other _ _ hi]; exact e i
      | busy j d c b r o e =>
        have := busy_inside b
        rw [hout j] at this
        simp at this
      | over d c o b r =>
        refine .over d (by rw [calls_snoc]; simp [c, Action.isCall]) (o.snoc _) (fun i => ?_) fun i v hv => ?_
        · show ((s.goto id .locked).callers i).busy = false
          by_cases hi : i = id
          · subst hi; rw [goto_same]; rfl
          · rw [goto_other _ _ hi]; exact b i
        · change (s.goto id .locked).callers i = _ at hv
          by_cases hi : i = id
          · subst hi; rw [goto_same] at hv; simp at hv
          · rw [goto_other _ _ hi] at hv; exact r i v hv
  | call id =>
    simp only [Lazy.step] at hs
    split at hs
    · next hl =>
      split at hs <;> simp at hs
      next hd =>
      subst hs
      refine ⟨mutex_goto hm (by rw [hl]; rfl), ?_⟩
      cases hp with
      | fresh d c r e =>
        refine .busy id d (by rw [calls_snoc]; simp [c, Action.isCall]) (by rw [goto_same]; rfl) (fun _ => r)
          (by rw [goto_same]; simp) fun i hi => ?_
        rw [goto_other _ _ hi]; exact e i
      | busy j d c b r o e =>
        exfalso
        have h1 := (hm j).1 (busy_inside b)
        have h2 := (hm id).1 (by rw [hl]; rfl)
        rw [h1] at h2
        simp at h2
        subst h2
        rw [hl] at b
        simp [Caller.busy] at b
      | over d c o b r => rw [d] at hd; simp at hd
    · simp at hs
  | skip id =>
    simp only [Lazy.step] at hs
    split at hs
    · next hl =>
      split at hs <;> simp at hs
      next hd =>
      subst hs
      refine ⟨mutex_goto hm (by rw [hl]; rfl), ?_⟩
      cases hp with
      | fresh d c r e => rw [d] at hd; simp at hd
      | busy j d c b r o e => rw [d] at hd; simp at hd
      | over d c o b r =>
        refine .over d (by rw [calls_snoc]; simp [c, Action.isCall]) (o.snoc _) (fun i => ?_) fun i v hv => ?_
        · by_cases hi : i = id
          · subst hi; rw [goto_same]; rfl
          · rw [goto_other _ _ hi]; exact b i
        · by_cases hi : i = id
          · subst hi; rw [goto_same] at hv; simp at hv
          · rw [goto_other _ _ hi] at hv; exact r i v hv
    · simp at hs
  | yield id v =>
    simp only [Lazy.step] at hs
    split at hs <;> simp at hs
    next hl =>
    subst hs
    refine ⟨fun i => mutex_goto hm (c := .assigned) (by rw [hl]; rfl) i, ?_⟩
    cases hp with
    | fresh d c r e => have := e id; rw [hl] at this; simp [Caller.early] at this
    | busy j d c b r o e =>
      have hj : id = j := by
        apply Decidable.byContradiction
        intro hne
        have := e id hne
        rw [hl] at this
        simp [Caller.early] at this
      subst hj
      refine .busy id d (by rw [calls_snoc]; simp [c, Action.isCall]) ?_ ?_ ?_ fun i hi => ?_
      · show ((s.goto id .assigned).callers id).busy = true
        rw [goto_same]; rfl
      · show (s.goto id .assigned).callers id = _ → _
        rw [goto_same]; simp
      · intro _
        exact .inl ⟨id, by simp⟩
      · show ((s.goto id .assigned).callers i).early = true
        rw [goto_other _ _ hi]; exact e i hi
    | over d c o b r => have := b id; rw [hl] at this; simp [Caller.busy] at this
  | panic id =>
    simp only [Lazy.step] at hs
    split at hs <;> simp at hs
    next hl =>
    subst hs
    refine ⟨mutex_goto hm (by rw [hl]; rfl), ?_⟩
    cases hp with
    | fresh d c r e => have := e id; rw [hl] at this; simp [Caller.early] at this
    | busy j d c b r o e =>
      have hj : id = j := by
        apply Decidable.byContradiction
        intro hne
        have := e id hne
        rw [hl] at this
        simp [Caller.early] at this
      subst hj
      refine .busy id d (by rw [calls_snoc]; simp [c, Action.isCall]) (by rw [goto_same]; rfl)
        (by rw [goto_same]; simp) (fun _ => .inr ⟨r hl, id, by simp⟩) fun i hi => ?_
      rw [goto_other _ _ hi]; exact e i hi
    | over d c o b r => have := b id; rw [hl] at this; simp [Caller.busy] at this
  | mark id =>
    have key : ∀ c' : Caller V, (c' = .marked ∨ c' = .markedPanic) →
        (s.callers id = .assigned ∨ s.callers id = .panicking) →
        Inv nil (as ++ [.mark id]) { s.goto id c' with done := true } := by
      intro c' hc' hl
      have hbusy : (s.callers id).busy = true := by rcases hl with h | h <;> rw [h] <;> rfl
      have hnr : s.callers id ≠ .running := by rcases hl with h | h <;> rw [h] <;> simp
      have hin : c'.inside = (s.callers id).inside := by
        rw [busy_inside hbusy]; rcases hc' with rfl | rfl <;> rfl
      refine ⟨fun i => mutex_goto hm hin i, ?_⟩
      cases hp with
      | fresh d c r e => have := e id; rcases hl with h | h <;> rw [h] at this <;> simp [Caller.early] at this
      | over d c o b r => have := b id; rw [hbusy] at this; simp at this
      | busy j d c b r o e =>
        have hj : id = j := by
          apply Decidable.byContradiction
          intro hne
          have := e id hne
          rcases hl with h | h <;> rw [h] at this <;> simp [Caller.early] at this
        subst hj
        refine .over rfl (by rw [calls_snoc]; simp [c, Action.isCall]) ((o hnr).snoc _) (fun i => ?_) fun i v hv => ?_
        · show ((s.goto id c').callers i).busy = false
          by_cases hi : i = id
          · subst hi; rw [goto_same]; rcases hc' with rfl | rfl <;> rfl
          · rw [goto_other _ _ hi]
            have := e i hi
            revert this
            cases s.callers i <;> simp [Caller.early, Caller.busy]
        · change (s.goto id c').callers i = _ at hv
          by_cases hi : i = id
          · subst hi; rw [goto_same] at hv; rcases hc' with rfl | rfl <;> simp at hv
          · rw [goto_other _ _ hi] at hv
            have := e i hi
            rw [hv] at this
            simp [Caller.early] at this
    simp only [Lazy.step] at hs
    split at hs <;> simp at hs
    · next hl => subst hs; exact key _ (.inl rfl) (.inl hl)
    · next hl => subst hs; exact key _ (.inr rfl) (.inr hl)
  | unlock id =>
    have key : ∀ c' : Caller V, (c' = .ready ∨ c' = .panicked) →
        (s.callers id = .marked ∨ s.callers id = .markedPanic) →
        Inv nil (as ++ [.unlock id]) { s.goto id c' with mutex := none } := by
      intro c' hc' hl
      have hmid : s.mutex = some id := (hm id).1 (by rcases hl with h | h <;> rw [h] <;> rfl)
      refine ⟨fun i => ?_, ?_⟩
      · show ((s.goto id c').callers i).inside = true ↔ none = some i
        by_cases hi : i = id
        · subst hi; rw [goto_same]; rcases hc' with rfl | rfl <;> simp [Caller.inside]
        · rw [goto_other _ _ hi]
          have : (s.callers i).inside ≠ true := fun hx => by
            have := (hm i).1 hx
            rw [hmid] at this
            simp at this
            exact hi this.symm
          simp [this]
      · cases hp with
        | fresh d c r e => have := e id; rcases hl with h | h <;> rw [h] at this <;> simp [Caller.early] at this
        | busy j d c b r o e =>
          have h1 := (hm j).1 (busy_inside b)
          rw [hmid] at h1
          simp at h1
          subst h1
          rcases hl with h | h <;> rw [h] at b <;> simp [Caller.busy] at b
        | over d c o b r =>
          refine .over d (by rw [calls_snoc]; simp [c, Action.isCall]) (o.snoc _) (fun i => ?_) fun i v hv => ?_
          · show ((s.goto id c').callers i).busy = false
            by_cases hi : i = id
            · subst hi; rw [goto_same]; rcases hc' with rfl | rfl <;> rfl
            · rw [goto_other _ _ hi]; exact b i
          · change (s.goto id c').callers i = _ at hv
            by_cases hi : i = id
            · subst hi; rw [goto_same] at hv; rcases hc' with rfl | rfl <;> simp at hv
            · rw [goto_other _ _ hi] at hv; exact r i v hv
    simp only [Lazy.step] at hs
    split at hs <;> simp at hs
    · next hl => subst hs; exact key _ (.inl rfl) (.inl hl)
    · next hl => subst hs; exact key _ (.inr rfl) (.inr hl)
  | read id =>
    simp only [Lazy.step] at hs
    split at hs <;> simp at hs
    next hl =>
    subst hs
    refine ⟨mutex_goto hm (by rw [hl]; rfl), ?_⟩
    cases hp with
    | fresh d c r e => have := e id; rw [hl] at this; simp [Caller.early] at this
    | busy j d c b r o e =>
      exfalso
      have hne : id ≠ j := by rintro rfl; rw [hl] at b; simp [Caller.busy] at b
      have := e id hne
      rw [hl] at this
      simp [Caller.early] at this
    | over d c o b r =>
      refine .over d (by rw [calls_snoc]; simp [c, Action.isCall]) (o.snoc _) (fun i => ?_) fun i v hv => ?_
      · by_cases hi : i = id
        · subst hi; rw [goto_same]; rfl
        · rw [goto_other _ _ hi]; exact b i
      · by_cases hi : i = id
        · subst hi; rw [goto_same] at hv; simp at hv; exact hv.symm
        · rw [goto_other _ _ hi] at hv; exact r i v hv

theorem Inv.run {nil : V} {pre as : List (Action V)} {s s' : Sys V} (h : Inv nil pre s) (hs : run s as = some s') :
    Inv nil (pre ++ as) s' := by
  induction as generalizing s pre with
  | nil => simp only [Lazy.run, Option.some.injEq] at hs; subst hs; rw [List.append_nil]; exact h
  | cons a as ih =>
    simp only [Lazy.run] at hs
    split at hs
    · next s1 h1 =>
      have := ih (h.step h1) hs
      rwa [List.append_assoc] at this
    · simp at hs

end Booklit.Lazy
