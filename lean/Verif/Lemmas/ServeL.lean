import Verif.Model.Serve

namespace Booklit.Serve

open Booklit Booklit.Templates

/-- What a response is made of. -/
def RespOk (H : List Action) (r : Nat) : Response → Prop
  | .page o => ∃ p ts, Action.load r (.page p) ∈ H ∧ Action.templates r ts ∈ H ∧ o.section_ = some p ∧
      o.template = ts.htmlPage p.style ∧ o.template.isSome = true ∧ ∀ u ∈ o.parts, u = ts
  | .error => True
  | .file => Action.load r .missing ∈ H
  | .closed => True

/-- What holds for a request. -/
def PhaseOk (H : List Action) (e : Engine) (r : Nat) : Phase → Prop
  | .idle => (∀ l, Action.load r l ∉ H) ∧ ∀ ts, Action.templates r ts ∉ H
  | .loaded p | .locked p => Action.load r (.page p) ∈ H ∧ ∀ ts, Action.templates r ts ∉ H
  | .ready p => Action.load r (.page p) ∈ H ∧ Action.templates r e.tmpl ∈ H
  | .given p => Action.load r (.page p) ∈ H ∧ Action.templates r e.tmpl ∈ H ∧ e.data = some p
  | .chosen p => Action.load r (.page p) ∈ H ∧ Action.templates r e.tmpl ∈ H ∧ e.data = some p ∧
      e.template = e.tmpl.htmlPage p.style ∧ e.template.isSome = true
  | .running p o => Action.load r (.page p) ∈ H ∧ Action.templates r e.tmpl ∈ H ∧ o.section_ = some p ∧
      o.template = e.tmpl.htmlPage p.style ∧ o.template.isSome = true ∧ ∀ u ∈ o.parts, u = e.tmpl
  | .sent x | .done x => RespOk H r x

/-- What holds at all times. -/
structure Inv (H : List Action) (s : Sys) : Prop where
  mutex : ∀ r, (s.req r).inside = true ↔ s.lock = some r
  phase : ∀ r, PhaseOk H s.engine r (s.req r)
  oneLoad : ∀ r l l', Action.load r l ∈ H → Action.load r l' ∈ H → l = l'
  oneSet : ∀ r u v, Action.templates r u ∈ H → Action.templates r v ∈ H → u = v

/-- The request an action is about. -/
def Action.who : Action → Nat
  | .load r _ | .lock r | .templates r _ | .noTemplates r _ | .give r | .choose r | .start r | .part r | .finish r
  | .fail r | .unlock r | .panic r => r

theorem RespOk.more {H : List Action} {r : Nat} {x : Response} (a : Action) (h : RespOk H r x) : RespOk (H ++ [a]) r x := by
  cases x with
  | page o =>
    obtain ⟨p, ts, h1, h2, h3⟩ := h
    exact ⟨p, ts, List.mem_append_left _ h1, List.mem_append_left _ h2, h3⟩
  | error => trivial
  | file => exact List.mem_append_left _ h
  | closed => trivial

theorem not_mem_more {H : List Action} {a b : Action} (h : b ∉ H) (hne : b ≠ a) : b ∉ H ++ [a] := by
  simp [h, hne]

theorem PhaseOk.more {H : List Action} {e : Engine} {r : Nat} {p : Phase} {a : Action} (ha : a.who ≠ r)
    (h : PhaseOk H e r p) : PhaseOk (H ++ [a]) e r p := by
  have n1 : ∀ l, Action.load r l ≠ a := by rintro l rfl; exact ha rfl
  have n2 : ∀ ts, Action.templates r ts ≠ a := by rintro l rfl; exact ha rfl
  cases p with
  | idle => exact ⟨fun l => not_mem_more (h.1 l) (n1 l), fun ts => not_mem_more (h.2 ts) (n2 ts)⟩
  | loaded p => exact ⟨List.mem_append_left _ h.1, fun ts => not_mem_more (h.2 ts) (n2 ts)⟩
  | locked p => exact ⟨List.mem_append_left _ h.1, fun ts => not_mem_more (h.2 ts) (n2 ts)⟩
  | ready p => exact ⟨List.mem_append_left _ h.1, List.mem_append_left _ h.2⟩
  | given p => exact ⟨List.mem_append_left _ h.1, List.mem_append_left _ h.2.1, h.2.2⟩
  | chosen p => exact ⟨List.mem_append_left _ h.1, List.mem_append_left _ h.2.1, h.2.2⟩
  | running p o => exact ⟨List.mem_append_left _ h.1, List.mem_append_left _ h.2.1, h.2.2⟩
  | sent x => exact RespOk.more a h
  | done x => exact RespOk.more a h

theorem PhaseOk.engine {H : List Action} {e e' : Engine} {r : Nat} {p : Phase} (hp : p.inside = false)
    (h : PhaseOk H e r p) : PhaseOk H e' r p := by
  cases p <;> first | exact h | simp [Phase.inside] at hp

/-- The general form of a step: request `r` moves on, and only the one inside changes the engine. -/
theorem Inv.go {H : List Action} {s s' : Sys} {a : Action} {r : Nat} {p : Phase} (h : Inv H s) (hw : a.who = r)
    (hreq : s'.req = Cache.set s.req r p)
    (hlock : s'.lock = s.lock ∧ p.inside = (s.req r).inside ∨
      s'.lock = some r ∧ s.lock = none ∧ p.inside = true ∨ s'.lock = none ∧ (s.req r).inside = true ∧ p.inside = false)
    (heng : s'.engine = s.engine ∨ (s.req r).inside = true)
    (hok : PhaseOk (H ++ [a]) s'.engine r p)
    (h1 : ∀ l, a = .load r l → s.req r = .idle)
    (h2 : ∀ ts, a = .templates r ts → ∃ q, s.req r = .locked q) : Inv (H ++ [a]) s' := by
  refine ⟨fun x => ?_, fun x => ?_, fun x l l' hl hl' => ?_, fun x u v hu hv => ?_⟩
  · rw [hreq, Cache.set]
    by_cases hx : x = r
    · subst hx
      rw [if_pos rfl]
      rcases hlock with ⟨l1, l2⟩ | ⟨l1, l2, l3⟩ | ⟨l1, l2, l3⟩
      · rw [l2, l1]; exact h.mutex x
      · rw [l1, l3]; simp
      · rw [l1, l3]; simp
    · rw [if_neg hx]
      rcases hlock with ⟨l1, l2⟩ | ⟨l1, l2, l3⟩ | ⟨l1, l2, l3⟩
      · rw [l1]; exact h.mutex x
      · rw [h.mutex x, l1, l2]; simp [Ne.symm hx]
      · rw [h.mutex x, l1, (h.mutex r).1 l2]; simp [Ne.symm hx]
  · rw [hreq, Cache.set]
    by_cases hx : x = r
    · subst hx
      rw [if_pos rfl]; exact hok
    · rw [if_neg hx]
      have hp := (h.phase x).more (a := a) (by rw [hw]; exact Ne.symm hx)
      rcases heng with e | e
      · rw [e]; exact hp
      · refine hp.engine ?_
        rw [Bool.eq_false_iff]
        intro hc
        have := (h.mutex x).1 hc
        rw [(h.mutex r).1 e] at this
        simp at this
        exact hx this.symm
  · have idle : ∀ m m', a = .load x m → Action.load x m' ∉ H := by
      intro m m' e
      have : x = r := by rw [← hw, e]; rfl
      subst this
      have := h.phase x
      rw [h1 m e] at this
      exact this.1 m'
    rcases List.mem_append.1 hl with hl | hl <;> rcases List.mem_append.1 hl' with hl' | hl'
    · exact h.oneLoad x l l' hl hl'
    · exact (idle l' l (List.mem_singleton.1 hl').symm hl).elim
    · exact (idle l l' (List.mem_singleton.1 hl).symm hl').elim
    · have := (List.mem_singleton.1 hl).trans (List.mem_singleton.1 hl').symm
      injection this
  · have none : ∀ m m', a = .templates x m → Action.templates x m' ∉ H := by
      intro m m' e
      have : x = r := by rw [← hw, e]; rfl
      subst this
      have hp := h.phase x
      obtain ⟨q, hq⟩ := h2 m e
      rw [hq] at hp
      exact hp.2 m'
    rcases List.mem_append.1 hu with hl | hl <;> rcases List.mem_append.1 hv with hl' | hl'
    · exact h.oneSet x u v hl hl'
    · exact (none v u (List.mem_singleton.1 hl').symm hl).elim
    · exact (none u v (List.mem_singleton.1 hl).symm hl').elim
    · have := (List.mem_singleton.1 hl).trans (List.mem_singleton.1 hl').symm
      injection this

theorem Inv.init (ts : TSet) : Inv [] (Sys.init ts) := by
  refine ⟨fun r => by simp [Sys.init, Phase.inside], fun r => ?_, fun _ _ _ h => (by cases h), fun _ _ _ h => (by cases h)⟩
  exact ⟨fun l h => (by cases h), fun ts h => (by cases h)⟩

theorem mem_last {H : List Action} {a : Action} : a ∈ H ++ [a] := List.mem_append_right _ (List.mem_singleton.2 rfl)

theorem Inv.step {H : List Action} {s s' : Sys} {a : Action} (h : Inv H s) (hs : step s a = some s') : Inv (H ++ [a]) s' := by
  have keep : ∀ {b : Action}, b ∈ H → b ∈ H ++ [a] := fun hb => List.mem_append_left _ hb
  cases a with
  | load r l =>
    have hp := h.phase r
    simp only [Serve.step] at hs
    split at hs
    · next hr =>
      rw [hr] at hp
      have ht : ∀ ts, Action.templates r ts ∉ H ++ [.load r l] := fun ts => not_mem_more (hp.2 ts) (by simp)
      have hin : (s.req r).inside = false := by rw [hr]; rfl
      split at hs <;> simp only [Option.some.injEq] at hs <;> subst hs
      · exact h.go (p := .loaded _) rfl rfl (.inl ⟨rfl, hin.symm⟩) (.inl rfl) ⟨mem_last, ht⟩
          (fun _ _ => hr) (fun _ e => by cases e)
      · exact h.go (p := .done .file) rfl rfl (.inl ⟨rfl, hin.symm⟩) (.inl rfl) mem_last
          (fun _ _ => hr) (fun _ e => by cases e)
      · exact h.go (p := .done .error) rfl rfl (.inl ⟨rfl, hin.symm⟩) (.inl rfl) trivial
          (fun _ _ => hr) (fun _ e => by cases e)
    · cases hs
  | lock r =>
    have hp := h.phase r
    simp only [Serve.step] at hs
    split at hs
    · next p hr hl =>
      rw [hr] at hp
      simp only [Option.some.injEq] at hs; subst hs
      exact h.go (p := .locked p) rfl rfl (.inr (.inl ⟨rfl, hl, rfl⟩)) (.inl rfl)
        ⟨keep hp.1, fun ts => not_mem_more (hp.2 ts) (by simp)⟩ (fun _ e => by cases e) (fun _ e => by cases e)
    · cases hs
  | templates r ts =>
    have hp := h.phase r
    simp only [Serve.step] at hs
    split at hs
    · next p hr =>
      rw [hr] at hp
      have hin : (s.req r).inside = true := by rw [hr]; rfl
      simp only [Option.some.injEq] at hs; subst hs
      exact h.go (p := .ready p) rfl rfl (.inl ⟨rfl, hin.symm⟩) (.inr hin)
        ⟨keep hp.1, mem_last⟩ (fun _ e => by cases e) (fun _ _ => ⟨p, hr⟩)
    · cases hs
  | noTemplates r ts =>
    have hp := h.phase r
    simp only [Serve.step] at hs
    split at hs
    · next p hr =>
      have hin : (s.req r).inside = true := by rw [hr]; rfl
      simp only [Option.some.injEq] at hs; subst hs
      exact h.go (p := .sent .error) rfl rfl (.inl ⟨rfl, hin.symm⟩) (.inr hin)
        trivial (fun _ e => by cases e) (fun _ e => by cases e)
    · cases hs
  | give r =>
    have hp := h.phase r
    simp only [Serve.step] at hs
    split at hs
    · next p hr =>
      rw [hr] at hp
      have hin : (s.req r).inside = true := by rw [hr]; rfl
      simp only [Option.some.injEq] at hs; subst hs
      exact h.go (p := .given p) rfl rfl (.inl ⟨rfl, hin.symm⟩) (.inr hin)
        ⟨keep hp.1, keep hp.2, rfl⟩ (fun _ e => by cases e) (fun _ e => by cases e)
    · cases hs
  | choose r =>
    have hp := h.phase r
    simp only [Serve.step] at hs
    split at hs
    · next p hr =>
      rw [hr] at hp
      have hin : (s.req r).inside = true := by rw [hr]; rfl
      split at hs
      · next t ht =>
        simp only [Option.some.injEq] at hs; subst hs
        exact h.go (p := .chosen p) rfl rfl (.inl ⟨rfl, hin.symm⟩) (.inr hin)
          ⟨keep hp.1, keep hp.2.1, hp.2.2, ht.symm, rfl⟩ (fun _ e => by cases e) (fun _ e => by cases e)
      · simp only [Option.some.injEq] at hs; subst hs
        exact h.go (p := .sent .error) rfl rfl (.inl ⟨rfl, hin.symm⟩) (.inr hin)
          trivial (fun _ e => by cases e) (fun _ e => by cases e)
    · cases hs
  | start r =>
    have hp := h.phase r
    simp only [Serve.step] at hs
    split at hs
    · next p hr =>
      rw [hr] at hp
      have hin : (s.req r).inside = true := by rw [hr]; rfl
      simp only [Option.some.injEq] at hs; subst hs
      exact h.go (p := .running p _) rfl rfl (.inl ⟨rfl, hin.symm⟩) (.inr hin)
        ⟨keep hp.1, keep hp.2.1, hp.2.2.1, hp.2.2.2.1, hp.2.2.2.2, fun u hu => by cases hu⟩
        (fun _ e => by cases e) (fun _ e => by cases e)
    · cases hs
  | part r =>
    have hp := h.phase r
    simp only [Serve.step] at hs
    split at hs
    · next p o hr =>
      rw [hr] at hp
      have hin : (s.req r).inside = true := by rw [hr]; rfl
      simp only [Option.some.injEq] at hs; subst hs
      refine h.go (p := .running p _) rfl rfl (.inl ⟨rfl, hin.symm⟩) (.inr hin)
        ⟨keep hp.1, keep hp.2.1, hp.2.2.1, hp.2.2.2.1, hp.2.2.2.2.1, fun u hu => ?_⟩
        (fun _ e => by cases e) (fun _ e => by cases e)
      rcases List.mem_append.1 hu with hu | hu
      · exact hp.2.2.2.2.2 u hu
      · exact List.mem_singleton.1 hu
    · cases hs
  | finish r =>
    have hp := h.phase r
    simp only [Serve.step] at hs
    split at hs
    · next p o hr =>
      rw [hr] at hp
      have hin : (s.req r).inside = true := by rw [hr]; rfl
      simp only [Option.some.injEq] at hs; subst hs
      exact h.go (p := .sent (.page o)) rfl rfl (.inl ⟨rfl, hin.symm⟩) (.inr hin)
        ⟨p, _, keep hp.1, keep hp.2.1, hp.2.2⟩ (fun _ e => by cases e) (fun _ e => by cases e)
    · cases hs
  | fail r =>
    have hp := h.phase r
    simp only [Serve.step] at hs
    split at hs
    · next p o hr =>
      have hin : (s.req r).inside = true := by rw [hr]; rfl
      simp only [Option.some.injEq] at hs; subst hs
      exact h.go (p := .sent .error) rfl rfl (.inl ⟨rfl, hin.symm⟩) (.inr hin)
        trivial (fun _ e => by cases e) (fun _ e => by cases e)
    · cases hs
  | unlock r =>
    have hp := h.phase r
    simp only [Serve.step] at hs
    split at hs
    · next x hr =>
      rw [hr] at hp
      have hin : (s.req r).inside = true := by rw [hr]; rfl
      simp only [Option.some.injEq] at hs; subst hs
      exact h.go (p := .done x) rfl rfl (.inr (.inr ⟨rfl, hin, rfl⟩)) (.inl rfl)
        (RespOk.more _ hp) (fun _ e => by cases e) (fun _ e => by cases e)
    · cases hs
  | panic r =>
    have hp := h.phase r
    simp only [Serve.step] at hs
    split at hs
    · next hin =>
      simp only [Option.some.injEq] at hs; subst hs
      exact h.go (p := .done .closed) rfl rfl (.inr (.inr ⟨rfl, hin, rfl⟩)) (.inl rfl)
        trivial (fun _ e => by cases e) (fun _ e => by cases e)
    · cases hs

theorem Inv.run {s s' : Sys} : ∀ {as H : List Action}, Inv H s → run s as = some s' → Inv (H ++ as) s' := by
  intro as
  induction as generalizing s with
  | nil => intro H h hr; simp only [Serve.run, Option.some.injEq] at hr; subst hr; simpa using h
  | cons a as ih =>
    intro H h hr
    simp only [Serve.run] at hr
    split at hr
    · next s1 h1 => simpa using ih (h.step h1) hr
    · cases hr

end Booklit.Serve
