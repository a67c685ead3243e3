import Verif.Spec.Reload
import Verif.Lemmas.TemplatesL

/-! Invariants of loading templates step by step. -/

namespace Booklit.Reload

open Booklit Booklit.Templates

variable {L : Lang} {builtin : TSet}

/-- The file system got only new versions. -/
def Grown (s s' : Sys) : Prop := ∀ n, ∃ newer, s'.disk n = newer ++ s.disk n

theorem Grown.refl (s : Sys) : Grown s s := fun _ => ⟨[], rfl⟩

theorem Grown.trans {s s' s'' : Sys} (h : Grown s s') (h' : Grown s' s'') : Grown s s'' := by
  intro n
  obtain ⟨a, ha⟩ := h n
  obtain ⟨b, hb⟩ := h' n
  exact ⟨b ++ a, by rw [hb, ha, List.append_assoc]⟩

theorem Grown.mem {s s' : Sys} (h : Grown s s') {n : Str} {w : TFile} (hw : w ∈ s.disk n) : w ∈ s'.disk n := by
  obtain ⟨a, ha⟩ := h n
  rw [ha]
  exact List.mem_append_right _ hw

theorem Grown.rising {s s' : Sys} (h : Grown s s') (hr : ∀ n, Rising (s'.disk n)) : ∀ n, Rising (s.disk n) := by
  intro n
  obtain ⟨a, ha⟩ := h n
  have := hr n
  rw [ha] at this
  exact (List.pairwise_append.mp this).2.1

theorem statFile_disk (s : Sys) (n : Str) (todo all : List Str) (reload : Bool) :
    (s.statFile n todo all reload).disk = s.disk ∧ (s.statFile n todo all reload).present = s.present := by
  unfold Sys.statFile
  split
  · split <;> exact ⟨rfl, rfl⟩
  · exact ⟨rfl, rfl⟩

theorem readFile_disk (s : Sys) (n : Str) (todo : List Str) :
    (s.readFile L n todo).disk = s.disk ∧ (s.readFile L n todo).present = s.present := by
  unfold Sys.readFile
  split
  · split
    · split <;> exact ⟨rfl, rfl⟩
    · exact ⟨rfl, rfl⟩
  · exact ⟨rfl, rfl⟩

/-- The kinds of steps, with what they need. -/
inductive Step (L : Lang) (builtin : TSet) (s : Sys) : Action → Sys → Prop where
  | edit (n : Str) (f : TFile) : Step L builtin s (.edit n f) (s.edited n f)
  | remove (n : Str) : Step L builtin s (.remove n) (s.removed n)
  | begin (names : List Str) (hp : s.phase = .idle) (hn : names.Perm s.present) :
      Step L builtin s (.begin names) { s with phase := .stat names names false }
  | statFile (n : Str) (todo all : List Str) (reload : Bool) (hp : s.phase = .stat (n :: todo) all reload) :
      Step L builtin s .stat (s.statFile n todo all reload)
  | statAll (all : List Str) (hp : s.phase = .stat [] all true) :
      Step L builtin s .stat { s with eng := ⟨builtin, s.eng.modTimes⟩, phase := .read all }
  | statNone (all : List Str) (hp : s.phase = .stat [] all false) : Step L builtin s .stat { s with phase := .ready }
  | readFile (n : Str) (todo : List Str) (hp : s.phase = .read (n :: todo)) : Step L builtin s .read (s.readFile L n todo)
  | readAll (hp : s.phase = .read []) : Step L builtin s .read { s with phase := .ready }
  | release (hp : s.phase = .ready ∨ s.phase = .failed) : Step L builtin s .release { s with phase := .idle }

theorem step_cases {s s' : Sys} {a : Action} (h : step L builtin s a = some s') : Step L builtin s a s' := by
  cases a with
  | edit n f => cases h; exact .edit n f
  | remove n => cases h; exact .remove n
  | begin names =>
    simp only [step] at h
    split at h
    · rename_i hp
      split at h
      · rename_i hn
        cases h
        exact .begin names hp (List.isPerm_iff.mp hn)
      · cases h
    · cases h
  | stat =>
    simp only [step] at h
    split at h
    · rename_i hp; cases h; exact .statFile _ _ _ _ hp
    · rename_i hp; cases h; exact .statAll _ hp
    · rename_i hp; cases h; exact .statNone _ hp
    · cases h
  | read =>
    simp only [step] at h
    split at h
    · rename_i hp; cases h; exact .readFile _ _ hp
    · rename_i hp; cases h; exact .readAll hp
    · cases h
  | release =>
    simp only [step] at h
    split at h
    · rename_i hp; cases h; exact .release (.inl hp)
    · rename_i hp; cases h; exact .release (.inr hp)
    · cases h

theorem step_grown {s s' : Sys} {a : Action} (h : step L builtin s a = some s') : Grown s s' := by
  cases step_cases h with
  | edit n f =>
    intro m
    by_cases e : m = n
    · subst e; exact ⟨[f], by simp [Sys.edited, Cache.set]⟩
    · exact ⟨[], by simp [Sys.edited, Cache.set, e]⟩
  | statFile n todo all reload hp =>
    intro m
    rw [(statFile_disk s n todo all reload).1]
    exact ⟨[], rfl⟩
  | readFile n todo hp =>
    intro m
    rw [(readFile_disk s n todo).1]
    exact ⟨[], rfl⟩
  | _ => exact fun m => ⟨[], rfl⟩

theorem run_grown {as : List Action} {s s' : Sys} (h : run L builtin s as = some s') : Grown s s' := by
  induction as generalizing s with
  | nil => cases h; exact .refl _
  | cons a as ih =>
    simp only [run] at h
    split at h
    · rename_i s0 h0
      exact (step_grown h0).trans (ih h)
    · cases h

/-- What holds in every state. -/
structure Base (L : Lang) (builtin : TSet) (s : Sys) : Prop where
  nodup : s.present.Nodup
  exist : ∀ n ∈ s.present, s.disk n ≠ []
  recorded : ∀ n t, s.eng.modTimes n = some t → ∃ w ∈ s.disk n, w.mtime = t

/-- The recorded time of this file is out of date, or there is no such file now. -/
def Gone (s : Sys) (n : Str) (t : Nat) : Prop := n ∉ s.present ∨ ∃ v rest, s.disk n = v :: rest ∧ t < v.mtime

/-- A file with this recorded time is in use, at least as new as this, or needs to be loaded again. -/
def Good (L : Lang) (builtin : TSet) (s : Sys) (n : Str) : Prop :=
  ∀ t, s.eng.modTimes n = some t →
    (∃ w ∈ s.disk n, t ≤ w.mtime ∧ Shown L builtin s.eng.tmpl n w) ∨ Gone s n t

/-- In use is a built-in template or one of the versions of the file. -/
def Known (L : Lang) (builtin : TSet) (s : Sys) (n : Str) : Prop :=
  s.eng.tmpl n = builtin n ∨ ∃ w ∈ s.disk n, Shown L builtin s.eng.tmpl n w

/-- What holds depending on the phase. -/
def Hold (L : Lang) (builtin : TSet) (s : Sys) : Prop :=
  match s.phase with
  | .idle => ∀ n, Good L builtin s n
  | .ready => ∀ n, Good L builtin s n
  | .stat todo all reload =>
    all.Nodup ∧ (∀ n ∈ todo, n ∈ all) ∧ (reload = false → ∀ n, Good L builtin s n) ∧
      ∀ n, n ∉ all → ∀ t, s.eng.modTimes n = some t → Gone s n t
  | .read todo => todo.Nodup ∧ ∀ n, (n ∈ todo → s.eng.tmpl n = builtin n) ∧ (n ∉ todo → Good L builtin s n)
  | .failed => True

theorem rising_head {v : TFile} {vs : List TFile} (h : Rising (v :: vs)) {w : TFile} (hw : w ∈ v :: vs) : w.mtime ≤ v.mtime := by
  rcases List.mem_cons.mp hw with rfl | hw
  · exact Nat.le_refl _
  · exact Nat.le_of_lt ((List.pairwise_cons.mp h).1 w hw)

theorem gone_edit {s : Sys} (b : Base L builtin s) {n : Str} {f : TFile} (hr : Rising (f :: s.disk n)) {m : Str} {t : Nat}
    (ht : s.eng.modTimes m = some t) (h : Gone s m t) :
    Gone (s.edited n f) m t := by
  by_cases e : m = n
  · subst e
    refine .inr ⟨f, s.disk m, by simp [Sys.edited, Cache.set], ?_⟩
    obtain ⟨w, hw, rfl⟩ := b.recorded m t ht
    exact (List.pairwise_cons.mp hr).1 w hw
  · rcases h with h | ⟨v, rest, hv, hlt⟩
    · refine .inl ?_
      simp only [Sys.edited]
      split
      · exact h
      · simp [e, h]
    · exact .inr ⟨v, rest, by simp [Sys.edited, Cache.set, e, hv], hlt⟩

theorem gone_remove {s : Sys} {n m : Str} {t : Nat} (h : Gone s m t) :
    Gone (s.removed n) m t := by
  rcases h with h | h
  · exact .inl fun hm => h (List.mem_filter.mp hm).1
  · exact .inr h

theorem step_base {s s' : Sys} {a : Action} (b : Base L builtin s) (h : step L builtin s a = some s') : Base L builtin s' := by
  have hg := step_grown h
  have hrec : ∀ n t, s.eng.modTimes n = some t → ∃ w ∈ s'.disk n, w.mtime = t := fun n t ht => by
    obtain ⟨w, hw, e⟩ := b.recorded n t ht
    exact ⟨w, hg.mem hw, e⟩
  cases step_cases h with
  | edit n f =>
    refine ⟨?_, ?_, hrec⟩
    · show List.Nodup (if n ∈ s.present then s.present else n :: s.present)
      split
      · exact b.nodup
      · rename_i hn; exact List.nodup_cons.mpr ⟨hn, b.nodup⟩
    · intro m hm
      by_cases e : m = n
      · subst e; simp [Sys.edited, Cache.set]
      · have hm' : m ∈ s.present := by
          have hm2 : m ∈ (if n ∈ s.present then s.present else n :: s.present) := hm
          split at hm2
          · exact hm2
          · rcases List.mem_cons.mp hm2 with h1 | h1
            · exact absurd h1 e
            · exact h1
        simpa [Sys.edited, Cache.set, e] using b.exist m hm'
  | remove n => exact ⟨b.nodup.filter _, fun m hm => b.exist m (List.mem_filter.mp hm).1, hrec⟩
  | statFile n todo all reload hp =>
    obtain ⟨e1, e2⟩ := statFile_disk s n todo all reload
    refine ⟨by rw [e2]; exact b.nodup, by rw [e1, e2]; exact b.exist, ?_⟩
    intro m t ht
    rw [e1]
    revert ht
    unfold Sys.statFile
    split
    · rename_i f rest hd
      split
      · intro ht
        by_cases e : m = n
        · subst e
          have : f.mtime = t := by simpa [Cache.set] using ht
          exact ⟨f, by rw [hd]; exact List.mem_cons_self, this⟩
        · exact b.recorded m t (by simpa [Cache.set, e] using ht)
      · exact b.recorded m t
    · exact b.recorded m t
  | readFile n todo hp =>
    obtain ⟨e1, e2⟩ := readFile_disk (L := L) s n todo
    refine ⟨by rw [e2]; exact b.nodup, by rw [e1, e2]; exact b.exist, ?_⟩
    intro m t ht
    rw [e1]
    refine b.recorded m t ?_
    revert ht
    unfold Sys.readFile
    split
    · split
      · split <;> exact id
      · exact id
    · exact id
  | _ => exact ⟨b.nodup, b.exist, hrec⟩

theorem define_shown {ts ts' : TSet} {n : Str} {f : TFile} (h : L.define ts n (trimNewlines f.text) = some ts')
    (hb : ts n = builtin n) : Shown L builtin ts' n f ∧ ∀ m, m ≠ n → ts' m = ts m := by
  unfold Lang.define at h
  split at h
  · split at h
    · rename_i hx
      cases h
      rw [hb] at hx
      refine ⟨⟨_, trimmed_trim _, ?_⟩, fun _ _ => rfl⟩
      rw [if_pos (by simpa using hx), hb]
    · rename_i hx
      cases h
      rw [hb] at hx
      refine ⟨⟨_, trimmed_trim _, ?_⟩, fun m e => by simp [Cache.set, e]⟩
      rw [if_neg (by simpa using hx)]
      simp [Cache.set]
  · cases h

theorem Shown.congr {ts ts' : TSet} {n : Str} {w : TFile} (e : ts' n = ts n) (h : Shown L builtin ts n w) :
    Shown L builtin ts' n w := by
  obtain ⟨t, h1, h2⟩ := h
  exact ⟨t, h1, e.trans h2⟩

theorem good_edit {s : Sys} (b : Base L builtin s) {n : Str} {f : TFile} (hr : Rising (f :: s.disk n)) {m : Str}
    (h : Good L builtin s m) : Good L builtin (s.edited n f) m := by
  intro t ht
  rcases h t ht with ⟨w, hw, h1⟩ | h1
  · exact .inl ⟨w, (step_grown (s := s) (L := L) (builtin := builtin) (a := .edit n f) rfl).mem hw, h1⟩
  · exact .inr (gone_edit b hr ht h1)

theorem good_remove {s : Sys} {n m : Str} (h : Good L builtin s m) :
    Good L builtin (s.removed n) m := by
  intro t ht
  rcases h t ht with h1 | h1
  · exact .inl h1
  · exact .inr (gone_remove h1)

theorem hold_edit {s : Sys} (b : Base L builtin s) (h : Hold L builtin s) {n : Str} {f : TFile} (hr : Rising (f :: s.disk n)) :
    Hold L builtin (s.edited n f) := by
  unfold Hold at h ⊢
  rw [show (s.edited n f).phase = s.phase from rfl]
  cases hp : s.phase with
  | idle => simp only [hp] at h ⊢; exact fun m => good_edit b hr (h m)
  | ready => simp only [hp] at h ⊢; exact fun m => good_edit b hr (h m)
  | stat todo all reload =>
    simp only [hp] at h ⊢
    exact ⟨h.1, h.2.1, fun e m => good_edit b hr (h.2.2.1 e m), fun m hm t ht => gone_edit b hr ht (h.2.2.2 m hm t ht)⟩
  | read todo =>
    simp only [hp] at h ⊢
    exact ⟨h.1, fun m => ⟨(h.2 m).1, fun hm => good_edit b hr ((h.2 m).2 hm)⟩⟩
  | failed => trivial

theorem hold_remove {s : Sys} (h : Hold L builtin s) {n : Str} :
    Hold L builtin (s.removed n) := by
  unfold Hold at h ⊢
  rw [show (s.removed n).phase = s.phase from rfl]
  cases hp : s.phase with
  | idle => simp only [hp] at h ⊢; exact fun m => good_remove (h m)
  | ready => simp only [hp] at h ⊢; exact fun m => good_remove (h m)
  | stat todo all reload =>
    simp only [hp] at h ⊢
    exact ⟨h.1, h.2.1, fun e m => good_remove (h.2.2.1 e m), fun m hm t ht => gone_remove (h.2.2.2 m hm t ht)⟩
  | read todo =>
    simp only [hp] at h ⊢
    exact ⟨h.1, fun m => ⟨(h.2 m).1, fun hm => good_remove ((h.2 m).2 hm)⟩⟩
  | failed => trivial

theorem step_hold {s s' : Sys} {a : Action} (b : Base L builtin s) (hh : Hold L builtin s) (hr : ∀ n, Rising (s'.disk n))
    (hf : s.phase ≠ .failed) (h : step L builtin s a = some s') : Hold L builtin s' := by
  cases step_cases h with
  | edit n f => exact hold_edit b hh (by simpa [Sys.edited, Cache.set] using hr n)
  | remove n => exact hold_remove hh
  | begin names hp hn =>
    unfold Hold at hh ⊢
    simp only [hp] at hh ⊢
    exact ⟨hn.nodup_iff.mpr b.nodup, fun _ h => h, fun _ => hh, fun n hm t _ => .inl fun hm' => hm (hn.mem_iff.mpr hm')⟩
  | statFile n todo all reload hp =>
    unfold Hold at hh
    simp only [hp] at hh
    obtain ⟨h1, h2, h3, h4⟩ := hh
    rw [(statFile_disk s n todo all reload).1] at hr
    unfold Sys.statFile
    split
    · rename_i f rest hd
      split
      · rename_i hin
        unfold Hold
        simp only
        refine ⟨h1, fun m hm => h2 m (List.mem_cons_of_mem _ hm), ?_, ?_⟩
        · intro e m t ht
          obtain ⟨e1, e2⟩ := Bool.or_eq_false_iff.mp e
          by_cases em : m = n
          · subst em
            have ht : f.mtime = t := by simpa [Cache.set] using ht
            subst ht
            cases ho : s.eng.modTimes m with
            | none => rw [ho] at e2; cases e2
            | some t0 =>
              rw [ho] at e2
              have hle : f.mtime ≤ t0 := by simpa [newerThan] using e2
              rcases h3 e1 m t0 ho with ⟨w, hw, hw1, hw2⟩ | hg | ⟨v, r, hv, hlt⟩
              · exact .inl ⟨w, hw, Nat.le_trans hle hw1, hw2⟩
              · exact absurd hin hg
              · rw [hd] at hv
                cases hv
                omega
          · exact h3 e1 m t (by simpa [Cache.set, em] using ht)
        · intro m hm t ht
          have em : m ≠ n := fun e => hm (e ▸ h2 n List.mem_cons_self)
          exact h4 m hm t (by simpa [Cache.set, em] using ht)
      · trivial
    · trivial
  | statAll all hp =>
    unfold Hold at hh ⊢
    simp only [hp] at hh ⊢
    exact ⟨hh.1, fun n => ⟨fun _ => trivial, fun hn t ht => .inr (hh.2.2.2 n hn t ht)⟩⟩
  | statNone all hp =>
    unfold Hold at hh ⊢
    simp only [hp] at hh ⊢
    exact hh.2.2.1 trivial
  | readFile n todo hp =>
    unfold Hold at hh
    simp only [hp] at hh
    obtain ⟨h1, h2⟩ := hh
    rw [(readFile_disk (L := L) s n todo).1] at hr
    obtain ⟨h1a, h1b⟩ := List.nodup_cons.mp h1
    unfold Sys.readFile
    split
    · rename_i f rest hd
      split
      · split
        · rename_i ts hts
          obtain ⟨k1, k2⟩ := define_shown hts ((h2 n).1 List.mem_cons_self)
          unfold Hold
          simp only
          refine ⟨h1b, fun m => ⟨fun hm => ?_, fun hm t ht => ?_⟩⟩
          · rw [k2 m fun e => h1a (e ▸ hm)]
            exact (h2 m).1 (List.mem_cons_of_mem _ hm)
          · by_cases em : m = n
            · subst em
              obtain ⟨w, hw, rfl⟩ := b.recorded m t ht
              have hw' := hw
              rw [hd] at hw'
              have := hr m
              rw [hd] at this
              exact .inl ⟨f, by show f ∈ s.disk m; rw [hd]; exact List.mem_cons_self, rising_head this hw', k1⟩
            · rcases (h2 m).2 (by simp [em, hm]) t ht with ⟨w, hw, hw1, hw2⟩ | hg
              · exact .inl ⟨w, hw, hw1, hw2.congr (k2 m em)⟩
              · exact .inr hg
        · trivial
      · trivial
    · trivial
  | readAll hp =>
    unfold Hold at hh ⊢
    simp only [hp] at hh ⊢
    exact fun n => (hh.2 n).2 (by simp)
  | release hp =>
    rcases hp with hp | hp
    · unfold Hold at hh ⊢
      simp only [hp] at hh ⊢
      exact hh
    · exact absurd hp hf

/-- In use is a built-in template or one of the versions of the file; before a file is read, the former. -/
def Knows (L : Lang) (builtin : TSet) (s : Sys) : Prop :=
  (∀ n, Known L builtin s n) ∧ (∀ todo all r, s.phase = .stat todo all r → all.Nodup) ∧
    ∀ todo, s.phase = .read todo → todo.Nodup ∧ ∀ n ∈ todo, s.eng.tmpl n = builtin n

theorem step_knows {s s' : Sys} {a : Action} (b : Base L builtin s) (k : Knows L builtin s) (h : step L builtin s a = some s') :
    Knows L builtin s' := by
  have hg := step_grown h
  have keep : s'.eng.tmpl = s.eng.tmpl → ∀ n, Known L builtin s' n := by
    intro e n
    rcases k.1 n with h1 | ⟨w, hw, h1⟩
    · exact .inl (by rw [e]; exact h1)
    · exact .inr ⟨w, hg.mem hw, by rw [e]; exact h1⟩
  cases step_cases h with
  | edit n f => exact ⟨keep rfl, k.2.1, k.2.2⟩
  | remove n => exact ⟨keep rfl, k.2.1, k.2.2⟩
  | begin names hp hn =>
    refine ⟨keep rfl, ?_, fun _ e => (by cases e)⟩
    intro todo all r e
    cases e
    exact hn.nodup_iff.mpr b.nodup
  | statFile n todo all reload hp =>
    unfold Sys.statFile at keep ⊢
    split at keep
    · split at keep
      · rename_i h1 h2
        simp only [h2, if_true]
        refine ⟨keep rfl, ?_, fun _ e => (by cases e)⟩
        intro _ _ _ e
        cases e
        exact k.2.1 _ _ _ hp
      · rename_i h1 h2
        simp only [h2, if_false]
        exact ⟨keep rfl, fun _ _ _ e => (by cases e), fun _ e => (by cases e)⟩
    · exact ⟨keep rfl, fun _ _ _ e => (by cases e), fun _ e => (by cases e)⟩
  | statAll all hp =>
    refine ⟨fun n => .inl rfl, fun _ _ _ e => (by cases e), ?_⟩
    intro todo e
    cases e
    exact ⟨k.2.1 _ _ _ hp, fun _ _ => rfl⟩
  | statNone all hp => exact ⟨keep rfl, fun _ _ _ e => (by cases e), fun _ e => (by cases e)⟩
  | readFile n todo hp =>
    obtain ⟨h1, h2⟩ := k.2.2 _ hp
    obtain ⟨h1a, h1b⟩ := List.nodup_cons.mp h1
    unfold Sys.readFile at keep ⊢
    split at keep
    · rename_i f rest hd
      split at keep
      · rename_i hin
        split at keep
        · rename_i ts hts
          simp only [hin, if_true]
          obtain ⟨k1, k2⟩ := define_shown hts (h2 n List.mem_cons_self)
          refine ⟨?_, fun _ _ _ e => (by cases e), ?_⟩
          · intro m
            by_cases em : m = n
            · subst em
              exact .inr ⟨f, by show f ∈ s.disk m; rw [hd]; exact List.mem_cons_self, k1⟩
            · rcases k.1 m with h3 | ⟨w, hw, h3⟩
              · exact .inl ((k2 m em).trans h3)
              · exact .inr ⟨w, hw, h3.congr (k2 m em)⟩
          · intro todo' e
            cases e
            refine ⟨h1b, fun m hm => ?_⟩
            show ts m = builtin m
            rw [k2 m fun e => h1a (e ▸ hm)]
            exact h2 m (List.mem_cons_of_mem _ hm)
        · rename_i hts
          simp only [hin, if_true]
          exact ⟨keep rfl, fun _ _ _ e => (by cases e), fun _ e => (by cases e)⟩
      · rename_i hin
        simp only [hin, if_false]
        exact ⟨keep rfl, fun _ _ _ e => (by cases e), fun _ e => (by cases e)⟩
    · exact ⟨keep rfl, fun _ _ _ e => (by cases e), fun _ e => (by cases e)⟩
  | readAll hp => exact ⟨keep rfl, fun _ _ _ e => (by cases e), fun _ e => (by cases e)⟩
  | release hp => exact ⟨keep rfl, fun _ _ _ e => (by cases e), fun _ e => (by cases e)⟩

theorem run_cons {s s' : Sys} {a : Action} {as : List Action} (h : run L builtin s (a :: as) = some s') :
    ∃ s0, step L builtin s a = some s0 ∧ run L builtin s0 as = some s' := by
  simp only [run] at h
  split at h
  · rename_i s0 h0; exact ⟨s0, h0, h⟩
  · cases h

theorem init_base : Base L builtin (Sys.init builtin) := ⟨List.nodup_nil, fun _ h => (by cases h), fun _ _ h => (by cases h)⟩

theorem init_hold : Hold L builtin (Sys.init builtin) := fun _ _ h => (by cases h)

theorem init_knows : Knows L builtin (Sys.init builtin) :=
  ⟨fun _ => .inl rfl, fun _ _ _ e => (by cases e), fun _ e => (by cases e)⟩

theorem run_base {as : List Action} {s s' : Sys} (b : Base L builtin s) (h : run L builtin s as = some s') : Base L builtin s' := by
  induction as generalizing s with
  | nil => cases h; exact b
  | cons a as ih =>
    obtain ⟨s0, h0, h1⟩ := run_cons h
    exact ih (step_base b h0) h1

theorem run_knows {as : List Action} {s s' : Sys} (b : Base L builtin s) (k : Knows L builtin s)
    (h : run L builtin s as = some s') : Knows L builtin s' := by
  induction as generalizing s with
  | nil => cases h; exact k
  | cons a as ih =>
    obtain ⟨s0, h0, h1⟩ := run_cons h
    exact ih (step_base b h0) (step_knows b k h0) h1

theorem run_hold {as : List Action} {s s' : Sys} (b : Base L builtin s) (k : Hold L builtin s)
    (hr : ∀ n, Rising (s'.disk n)) (hu : Untroubled L builtin s as) (h : run L builtin s as = some s') :
    Hold L builtin s' := by
  induction as generalizing s with
  | nil => cases h; exact k
  | cons a as ih =>
    obtain ⟨s0, h0, h1⟩ := run_cons h
    exact ih (step_base b h0) (step_hold b k ((run_grown h1).rising hr) hu.1 h0) (hu.2 s0 h0) h1

/-- A version at least as new as `v` is in use. -/
def Use (L : Lang) (builtin : TSet) (s : Sys) (n : Str) (v : TFile) : Prop :=
  ∃ w ∈ s.disk n, v.mtime ≤ w.mtime ∧ Shown L builtin s.eng.tmpl n w

/-- During a load that listed `names` in the state `s1`. -/
def During (L : Lang) (builtin : TSet) (s1 : Sys) (names : List Str) (s : Sys) : Prop :=
  ∀ n ∈ names, ∀ v old, s1.disk n = v :: old →
    match s.phase with
    | .stat todo all reload => all = names ∧ (n ∉ todo → reload = false → Use L builtin s n v)
    | .read todo => n ∉ todo → Use L builtin s n v
    | .ready => Use L builtin s n v
    | _ => True

theorem Use.frame {s s' : Sys} {n : Str} {v : TFile} (hg : Grown s s') (e : s'.eng.tmpl n = s.eng.tmpl n)
    (h : Use L builtin s n v) : Use L builtin s' n v := by
  obtain ⟨w, h1, h2, h3⟩ := h
  exact ⟨w, hg.mem h1, h2, h3.congr e⟩

theorem head_newer {s1 s : Sys} (hg : Grown s1 s) {n : Str} (hr : Rising (s.disk n)) {v : TFile} {old : List TFile}
    (hv : s1.disk n = v :: old) {f : TFile} {rest : List TFile} (hd : s.disk n = f :: rest) : v.mtime ≤ f.mtime := by
  rw [hd] at hr
  refine rising_head hr ?_
  rw [← hd]
  exact hg.mem (by rw [hv]; exact List.mem_cons_self)

theorem step_during {s1 s s' : Sys} {names : List Str} {a : Action} (k : Knows L builtin s)
    (hh : Hold L builtin s) (hg : Grown s1 s) (hr : ∀ n, Rising (s'.disk n))
    (ha : a ≠ .release) (hi : s.phase ≠ .idle) (d : During L builtin s1 names s) (h : step L builtin s a = some s') :
    During L builtin s1 names s' ∧ s'.phase ≠ .idle := by
  have hs := step_grown h
  cases step_cases h with
  | edit n f =>
    refine ⟨?_, hi⟩
    intro m hm v old hv
    have := d m hm v old hv
    revert this
    show _ → (match s.phase with
      | .stat todo all reload => _
      | .read todo => _
      | .ready => _
      | _ => _)
    cases s.phase with
    | stat todo all reload => exact fun this => ⟨this.1, fun e e' => (this.2 e e').frame hs rfl⟩
    | read todo => exact fun this e => (this e).frame hs rfl
    | ready => exact fun this => this.frame hs rfl
    | _ => exact fun _ => trivial
  | remove n =>
    refine ⟨?_, hi⟩
    intro m hm v old hv
    have := d m hm v old hv
    revert this
    show _ → (match s.phase with
      | .stat todo all reload => _
      | .read todo => _
      | .ready => _
      | _ => _)
    cases s.phase with
    | stat todo all reload => exact fun this => ⟨this.1, fun e e' => (this.2 e e').frame hs rfl⟩
    | read todo => exact fun this e => (this e).frame hs rfl
    | ready => exact fun this => this.frame hs rfl
    | _ => exact fun _ => trivial
  | begin ns hp hn => exact absurd hp hi
  | statFile n todo all reload hp =>
    unfold Hold at hh
    simp only [hp] at hh
    obtain ⟨h1, h2, h3, h4⟩ := hh
    have hrs : ∀ n, Rising (s.disk n) := by rw [(statFile_disk s n todo all reload).1] at hr; exact hr
    clear hs h hr
    unfold Sys.statFile
    split
    · rename_i f rest hd
      split
      · rename_i hin
        refine ⟨?_, by intro e; cases e⟩
        intro m hm v old hv
        have := d m hm v old hv
        simp only [hp] at this
        refine ⟨this.1, fun hm' e => ?_⟩
        obtain ⟨e1, e2⟩ := Bool.or_eq_false_iff.mp e
        by_cases em : m = n
        · subst em
          cases ho : s.eng.modTimes m with
          | none => rw [ho] at e2; cases e2
          | some t0 =>
            rw [ho] at e2
            have hle : f.mtime ≤ t0 := by simpa [newerThan] using e2
            rcases h3 e1 m t0 ho with ⟨w, hw, hw1, hw2⟩ | hg' | ⟨v', r, hv', hlt⟩
            · exact ⟨w, hw, Nat.le_trans (Nat.le_trans (head_newer hg (hrs m) hv hd) hle) hw1, hw2⟩
            · exact absurd hin hg'
            · rw [hd] at hv'
              cases hv'
              omega
        · exact this.2 (by simp [em, hm']) e1
      · exact ⟨fun m hm v old hv => trivial, by intro e; cases e⟩
    · exact ⟨fun m hm v old hv => trivial, by intro e; cases e⟩
  | statAll all hp =>
    refine ⟨?_, by intro e; cases e⟩
    intro m hm v old hv
    have := d m hm v old hv
    simp only [hp] at this
    exact fun hm' => absurd (this.1 ▸ hm) hm'
  | statNone all hp =>
    refine ⟨?_, by intro e; cases e⟩
    intro m hm v old hv
    have := d m hm v old hv
    simp only [hp] at this
    exact this.2 (by simp) trivial
  | readFile n todo hp =>
    have hrs : ∀ n, Rising (s.disk n) := by rw [(readFile_disk (L := L) s n todo).1] at hr; exact hr
    obtain ⟨h1, h2⟩ := k.2.2 _ hp
    clear hs h hr
    unfold Sys.readFile
    split
    · rename_i f rest hd
      split
      · split
        · rename_i ts hts
          obtain ⟨k1, k2⟩ := define_shown hts (h2 n List.mem_cons_self)
          refine ⟨?_, by intro e; cases e⟩
          intro m hm v old hv
          have := d m hm v old hv
          simp only [hp] at this
          intro hm'
          by_cases em : m = n
          · subst em
            exact ⟨f, by show f ∈ s.disk m; rw [hd]; exact List.mem_cons_self, head_newer hg (hrs m) hv hd, k1⟩
          · exact (this (by simp [em, hm'])).frame (.refl s) (k2 m em)
        · exact ⟨fun m hm v old hv => trivial, by intro e; cases e⟩
      · exact ⟨fun m hm v old hv => trivial, by intro e; cases e⟩
    · exact ⟨fun m hm v old hv => trivial, by intro e; cases e⟩
  | readAll hp =>
    refine ⟨?_, by intro e; cases e⟩
    intro m hm v old hv
    have := d m hm v old hv
    simp only [hp] at this
    exact this (by simp)
  | release hp => exact absurd rfl ha

theorem run_during {s1 : Sys} {names : List Str} {as : List Action} {s s' : Sys} (hb : Base L builtin s)
    (k : Knows L builtin s) (hh : Hold L builtin s) (hg : Grown s1 s) (hr : ∀ n, Rising (s'.disk n))
    (hu : Untroubled L builtin s as)
    (ha : Action.release ∉ as) (hi : s.phase ≠ .idle) (d : During L builtin s1 names s) (h : run L builtin s as = some s') :
    During L builtin s1 names s' := by
  induction as generalizing s with
  | nil => cases h; exact d
  | cons a as ih =>
    obtain ⟨s0, h0, h1⟩ := run_cons h
    have hr0 := (run_grown h1).rising hr
    obtain ⟨d0, i0⟩ := step_during k hh hg hr0 (fun e => ha (by simp [e])) hi d h0
    exact ih (step_base hb h0) (step_knows hb k h0) (step_hold hb hh hr0 hu.1 h0) (hg.trans (step_grown h0)) (hu.2 s0 h0)
      (fun e => ha (by simp [e])) i0 d0 h1

/-- Why a load that listed `names` may fail. -/
def Blame (L : Lang) (s1 : Sys) (names : List Str) (bs : List Action) (s : Sys) : Prop :=
  ∃ n ∈ names, Action.remove n ∈ bs ∨
    ∃ newer v old w t, s1.disk n = v :: old ∧ s.disk n = newer ++ v :: old ∧ w ∈ newer ++ [v] ∧ Trimmed w.text t ∧
      L.parses t = false

/-- During a load that listed `names` in the state `s1`: what is needed to explain a failure. -/
structure Trail (L : Lang) (s1 : Sys) (names : List Str) (bs : List Action) (s : Sys) : Prop where
  files : ∀ n ∈ names, n ∈ s.present ∨ Action.remove n ∈ bs
  grown : Grown s1 s
  lists : match s.phase with
    | .stat todo all _ => (∀ n ∈ todo, n ∈ names) ∧ ∀ n ∈ all, n ∈ names
    | .read todo => ∀ n ∈ todo, n ∈ names
    | .failed => Blame L s1 names bs s
    | .idle => False
    | _ => True

theorem Blame.frame {s1 s s' : Sys} {names : List Str} {bs : List Action} (hg : Grown s s') (h : Blame L s1 names bs s) :
    Blame L s1 names bs s' := by
  obtain ⟨n, hn, h | ⟨newer, v, old, w, t, h1, h2, h3, h4, h5⟩⟩ := h
  · exact ⟨n, hn, .inl h⟩
  · obtain ⟨x, hx⟩ := hg n
    refine ⟨n, hn, .inr ⟨x ++ newer, v, old, w, t, h1, by rw [hx, h2, List.append_assoc], ?_, h4, h5⟩⟩
    rw [List.append_assoc]
    exact List.mem_append_right _ h3

theorem step_trail {s1 s s' : Sys} {names : List Str} {bs : List Action} {a : Action} (hb : Base L builtin s)
    (hd1 : ∀ n ∈ names, s1.disk n ≠ []) (ha : a ∈ bs) (hr : a ≠ .release) (t : Trail L s1 names bs s)
    (h : step L builtin s a = some s') : Trail L s1 names bs s' := by
  have hs := step_grown h
  have hg := t.grown.trans hs
  have key : ∀ n ∈ names, n ∉ s.present → Blame L s1 names bs s := fun n hn hp => by
    rcases t.files n hn with h1 | h1
    · exact absurd h1 hp
    · exact ⟨n, hn, .inl h1⟩
  cases step_cases h with
  | edit n f =>
    refine ⟨?_, hg, ?_⟩
    · intro m hm
      rcases t.files m hm with h1 | h1
      · refine .inl ?_
        simp only [Sys.edited]
        split
        · exact h1
        · exact List.mem_cons_of_mem _ h1
      · exact .inr h1
    · have := t.lists
      revert this
      show _ → (match s.phase with
        | .stat todo all _ => _
        | .read todo => _
        | .failed => _
        | .idle => _
        | _ => _)
      cases s.phase with
      | failed => exact fun this => this.frame hs
      | _ => exact id
  | remove n =>
    refine ⟨?_, hg, ?_⟩
    · intro m hm
      by_cases e : m = n
      · subst e; exact .inr ha
      · rcases t.files m hm with h1 | h1
        · exact .inl (List.mem_filter.mpr ⟨h1, by simpa using e⟩)
        · exact .inr h1
    · have := t.lists
      revert this
      show _ → (match s.phase with
        | .stat todo all _ => _
        | .read todo => _
        | .failed => _
        | .idle => _
        | _ => _)
      cases s.phase with
      | failed => exact fun this => this.frame hs
      | _ => exact id
  | begin ns hp hn =>
    have := t.lists
    rw [hp] at this
    exact this.elim
  | statFile n todo all reload hp =>
    have hl := t.lists
    simp only [hp] at hl
    refine ⟨by rw [(statFile_disk s n todo all reload).2]; exact t.files, hg, ?_⟩
    have fr : ∀ {x}, Blame L s1 names bs s → x = s.statFile n todo all reload → Blame L s1 names bs x :=
      fun hx e => hx.frame (e ▸ hs)
    clear hg h hs
    revert fr
    unfold Sys.statFile
    split
    · rename_i f rest hd
      split
      · exact fun _ => ⟨fun m hm => hl.1 m (List.mem_cons_of_mem _ hm), hl.2⟩
      · rename_i hin
        exact fun fr => fr (key n (hl.1 n List.mem_cons_self) hin) rfl
    · rename_i hd
      intro fr
      have hn := hl.1 n List.mem_cons_self
      refine fr (key n hn fun hin => hb.exist n hin hd) rfl
  | statAll all hp =>
    have hl := t.lists
    simp only [hp] at hl
    exact ⟨t.files, hg, hl.2⟩
  | statNone all hp => exact ⟨t.files, hg, trivial⟩
  | readFile n todo hp =>
    have hl := t.lists
    simp only [hp] at hl
    refine ⟨by rw [(readFile_disk (L := L) s n todo).2]; exact t.files, hg, ?_⟩
    have fr : ∀ {x}, Blame L s1 names bs s → x = s.readFile L n todo → Blame L s1 names bs x :=
      fun hx e => hx.frame (e ▸ hs)
    clear hg h hs
    revert fr
    have hn := hl n List.mem_cons_self
    unfold Sys.readFile
    split
    · rename_i f rest hd
      split
      · split
        · exact fun _ m hm => hl m (List.mem_cons_of_mem _ hm)
        · rename_i hts
          refine fun fr => fr ⟨n, hn, .inr ?_⟩ rfl
          cases hv : s1.disk n with
          | nil => exact absurd hv (hd1 n hn)
          | cons v old =>
            obtain ⟨newer, hnew⟩ := t.grown n
            rw [hv] at hnew
            refine ⟨newer, v, old, f, _, rfl, hnew, ?_, trimmed_trim _, ?_⟩
            · rw [hd] at hnew
              cases newer with
              | nil => cases hnew; simp
              | cons x xs => cases hnew; simp
            · unfold Lang.define at hts
              split at hts
              · split at hts <;> cases hts
              · rename_i hx; simpa using hx
      · rename_i hin
        exact fun fr => fr (key n hn hin) rfl
    · rename_i hd
      exact fun fr => fr (key n hn fun hin => hb.exist n hin hd) rfl
  | readAll hp => exact ⟨t.files, hg, trivial⟩
  | release hp => exact absurd rfl hr

theorem run_trail {s1 : Sys} {names : List Str} {bs as : List Action} {s s' : Sys} (hb : Base L builtin s)
    (hd1 : ∀ n ∈ names, s1.disk n ≠ []) (ha : ∀ a ∈ as, a ∈ bs) (hr : Action.release ∉ as) (t : Trail L s1 names bs s)
    (h : run L builtin s as = some s') : Trail L s1 names bs s' := by
  induction as generalizing s with
  | nil => cases h; exact t
  | cons a as ih =>
    obtain ⟨s0, h0, h1⟩ := run_cons h
    exact ih (step_base hb h0) (fun x hx => ha x (List.mem_cons_of_mem _ hx)) (fun e => hr (List.mem_cons_of_mem _ e))
      (step_trail hb hd1 (ha a List.mem_cons_self) (fun e => hr (by simp [e])) t h0) h1

theorem run_append {as bs : List Action} {s s1 s2 : Sys} (h : run L builtin s as = some s1) (h' : run L builtin s1 bs = some s2) :
    run L builtin s (as ++ bs) = some s2 := by
  induction as generalizing s with
  | nil => cases h; exact h'
  | cons a as ih =>
    obtain ⟨s0, h0, h1⟩ := run_cons h
    simp only [List.cons_append, run, h0]
    exact ih h1

/-- The first loop without interruption. -/
theorem run_stats (g : Str → TFile) (all : List Str) : ∀ (todo : List Str) (reload : Bool) (s : Sys),
    (∀ n ∈ todo, n ∈ s.present ∧ ∃ old, s.disk n = g n :: old) → s.phase = .stat todo all reload →
    run L builtin s (List.replicate todo.length .stat) = some { s with
      eng := ⟨s.eng.tmpl, (checkTimes s.eng.modTimes reload (todo.map fun n => (n, g n))).2⟩,
      phase := .stat [] all (checkTimes s.eng.modTimes reload (todo.map fun n => (n, g n))).1 } := by
  intro todo
  induction todo with
  | nil => intro reload s _ hp; cases s; cases hp; rfl
  | cons n todo ih =>
    intro reload s hs hp
    obtain ⟨h1, old, h2⟩ := hs n List.mem_cons_self
    have e : s.statFile n todo all reload = { s with
        eng := ⟨s.eng.tmpl, Cache.set s.eng.modTimes n (some (g n).mtime)⟩
        phase := .stat todo all (reload || newerThan (s.eng.modTimes n) (g n).mtime) } := by
      simp only [Sys.statFile, h2, if_pos h1]
    simp only [List.length_cons, List.replicate_succ, run, step, hp, e]
    exact ih (reload || newerThan (s.eng.modTimes n) (g n).mtime) { s with
        eng := ⟨s.eng.tmpl, Cache.set s.eng.modTimes n (some (g n).mtime)⟩
        phase := .stat todo all (reload || newerThan (s.eng.modTimes n) (g n).mtime) }
      (fun m hm => hs m (List.mem_cons_of_mem _ hm)) rfl

/-- The second loop without interruption. -/
theorem run_reads (g : Str → TFile) : ∀ (todo : List Str) (s : Sys),
    (∀ n ∈ todo, n ∈ s.present ∧ ∃ old, s.disk n = g n :: old) → s.phase = .read todo →
    ∃ k, run L builtin s (List.replicate k .read) = some { s with
      eng := ⟨(L.parseAll s.eng.tmpl (todo.map fun n => (n, g n))).2, s.eng.modTimes⟩,
      phase := if (L.parseAll s.eng.tmpl (todo.map fun n => (n, g n))).1 then .ready else .failed } := by
  intro todo
  induction todo with
  | nil =>
    intro s _ hp
    refine ⟨1, ?_⟩
    simp only [List.replicate_succ, List.replicate_zero, run, step, hp]
    rfl
  | cons n todo ih =>
    intro s hs hp
    obtain ⟨h1, old, h2⟩ := hs n List.mem_cons_self
    cases hd : L.define s.eng.tmpl n (trimNewlines (g n).text) with
    | none =>
      refine ⟨1, ?_⟩
      simp only [List.replicate_succ, List.replicate_zero, run, step, hp, Sys.readFile, h2, if_pos h1, hd, List.map_cons,
        Lang.parseAll]
      rfl
    | some ts =>
      obtain ⟨k, hk⟩ := ih { s with eng := ⟨ts, s.eng.modTimes⟩, phase := .read todo }
        (fun m hm => hs m (List.mem_cons_of_mem _ hm)) rfl
      refine ⟨k + 1, ?_⟩
      simp only [List.replicate_succ, run, step, hp, Sys.readFile, h2, if_pos h1, hd, List.map_cons, Lang.parseAll]
      exact hk

theorem untroubled_append {as bs : List Action} {s s1 : Sys} (hu : Untroubled L builtin s (as ++ bs))
    (h : run L builtin s as = some s1) : Untroubled L builtin s as ∧ Untroubled L builtin s1 bs := by
  induction as generalizing s with
  | nil =>
    cases h
    refine ⟨?_, hu⟩
    cases bs with
    | nil => exact hu
    | cons b bs => exact hu.1
  | cons a as ih =>
    obtain ⟨s0, h0, h1⟩ := run_cons h
    have := ih (hu.2 s0 h0) h1
    refine ⟨⟨hu.1, fun s' h' => ?_⟩, this.2⟩
    rw [h0] at h'
    cases h'
    exact this.1

end Booklit.Reload
