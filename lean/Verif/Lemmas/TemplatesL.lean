import Verif.Spec.Templates

namespace Booklit.Templates

open Booklit

theorem trimmed_trim (s : Str) : Trimmed s (trimNewlines s) := by
  have hrev : ∀ l : Str, (∃ k, l = List.replicate k '\n' ++ l.dropWhile (· == '\n')) ∧ (l.dropWhile (· == '\n')).head? ≠ some '\n' := by
    intro l
    induction l with
    | nil => exact ⟨⟨0, rfl⟩, by simp⟩
    | cons c cs ih =>
      by_cases hc : c = '\n'
      · subst hc
        simp only [List.dropWhile_cons, beq_self_eq_true, if_true]
        obtain ⟨⟨k, hk⟩, h2⟩ := ih
        refine ⟨⟨k + 1, ?_⟩, h2⟩
        rw [List.replicate_succ, List.cons_append, ← hk]
      · have : (c == '\n') = false := by simpa using hc
        simp only [List.dropWhile_cons, this]
        exact ⟨⟨0, rfl⟩, by simpa using hc⟩
  obtain ⟨⟨k, hk⟩, h2⟩ := hrev s.reverse
  refine ⟨⟨k, ?_⟩, ?_⟩
  · have := congrArg List.reverse hk
    simpa [trimNewlines] using this
  · simpa [trimNewlines, List.getLast?_reverse] using h2

theorem trimmed_unique {s t t' : Str} (h : Trimmed s t) (h' : Trimmed s t') : t = t' := by
  obtain ⟨⟨k, hk⟩, h1⟩ := h
  obtain ⟨⟨k', hk'⟩, h1'⟩ := h'
  rw [hk] at hk'
  clear hk s
  have aux : ∀ {a b : Str} {m : Nat}, a.getLast? ≠ some '\n' → a = b ++ List.replicate m '\n' → m = 0 := by
    intro a b m ha e
    cases m with
    | zero => rfl
    | succ m =>
      rw [List.replicate_succ', ← List.append_assoc] at e
      rw [e] at ha
      simp at ha
  rcases Nat.le_total k k' with hle | hle
  · obtain ⟨m, rfl⟩ := Nat.exists_eq_add_of_le' hle
    rw [← List.replicate_append_replicate, ← List.append_assoc] at hk'
    have := List.append_cancel_right hk'
    have hm := aux h1 this
    subst hm
    simpa using this
  · obtain ⟨m, rfl⟩ := Nat.exists_eq_add_of_le' hle
    rw [← List.replicate_append_replicate, ← List.append_assoc] at hk'
    have := (List.append_cancel_right hk').symm
    have hm := aux h1' this
    subst hm
    simpa using this.symm

theorem lookup_cons (a name : Str) (f : TFile) (d : Dir) :
    List.lookup name ((a, f) :: d) = if name = a then some f else d.lookup name := by
  rw [List.lookup_cons]
  by_cases h : name = a
  · subst h; simp
  · have : (name == a) = false := by simpa using h
    simp [this, h]

theorem lookup_none {name : Str} {d : Dir} (h : name ∉ d.map (·.1)) : d.lookup name = none := by
  induction d with
  | nil => rfl
  | cons a d ih =>
    obtain ⟨a, f⟩ := a
    simp at h
    rw [lookup_cons, if_neg h.1]
    exact ih (by simpa using h.2)

theorem lookup_mem {name : Str} {f : TFile} {d : Dir} (h : d.lookup name = some f) : (name, f) ∈ d := by
  induction d with
  | nil => cases h
  | cons a d ih =>
    obtain ⟨a, g⟩ := a
    rw [lookup_cons] at h
    split at h
    · next e => cases h; subst e; simp
    · exact List.mem_cons_of_mem _ (ih h)

theorem mem_lookup {p : Str × TFile} {d : Dir} (hd : (d.map (·.1)).Nodup) (h : p ∈ d) : d.lookup p.1 = some p.2 := by
  induction d with
  | nil => cases h
  | cons a d ih =>
    obtain ⟨a, g⟩ := a
    rw [lookup_cons]
    rw [List.map_cons, List.nodup_cons] at hd
    rcases List.mem_cons.1 h with rfl | h
    · simp
    · rw [if_neg ?_]
      · exact ih hd.2 h
      · intro e
        exact hd.1 (List.mem_map.2 ⟨p, h, e⟩)

theorem Evolves.of_list {d d' : Dir} (hd : (d'.map (·.1)).Nodup)
    (h : ∀ p ∈ d, ∃ q ∈ d', q.1 = p.1 ∧ p.2.mtime ≤ q.2.mtime ∧ (q.2.mtime ≤ p.2.mtime → q.2 = p.2)) : Evolves d d' := by
  intro name f hf
  obtain ⟨q, h1, h2, h3⟩ := h _ (lookup_mem hf)
  exact ⟨q.2, by rw [← mem_lookup hd h1, h2], h3⟩

theorem checkTimes_times (d : Dir) (hd : (d.map (·.1)).Nodup) : ∀ (times : Str → Option Nat) (r : Bool) (name : Str),
    (checkTimes times r d).2 name = match d.lookup name with | some f => some f.mtime | none => times name := by
  induction d with
  | nil => intro times r name; rfl
  | cons a d ih =>
    intro times r name
    obtain ⟨a, f⟩ := a
    rw [List.map_cons, List.nodup_cons] at hd
    rw [checkTimes, ih hd.2, lookup_cons]
    by_cases h : name = a
    · subst h
      rw [lookup_none hd.1]
      simp [Cache.set]
    · simp [Cache.set, h]

theorem checkTimes_reload (d : Dir) (hd : (d.map (·.1)).Nodup) : ∀ (times : Str → Option Nat) (r : Bool),
    (checkTimes times r d).1 = false ↔ r = false ∧ ∀ p ∈ d, ∃ last, times p.1 = some last ∧ p.2.mtime ≤ last := by
  induction d with
  | nil => intro times r; simp [checkTimes]
  | cons a d ih =>
    intro times r
    obtain ⟨a, f⟩ := a
    rw [List.map_cons, List.nodup_cons] at hd
    rw [checkTimes, ih hd.2, Bool.or_eq_false_iff, List.forall_mem_cons, and_assoc]
    refine and_congr_right fun _ => ?_
    have e : ∀ p ∈ d, Cache.set times a (some f.mtime) p.1 = times p.1 := by
      intro p hp
      rw [Cache.set, if_neg]
      rintro rfl
      exact hd.1 (List.mem_map.2 ⟨p, hp, rfl⟩)
    refine and_congr ?_ ?_
    · cases times a with
      | none => simp
      | some l => simp
    · constructor
      · intro h p hp; rw [← e p hp]; exact h p hp
      · intro h p hp; rw [e p hp]; exact h p hp

theorem parseAll_ok {L : Lang} (b0 : TSet) : ∀ (d : Dir) (ts : TSet), (d.map (·.1)).Nodup → AllParse L d →
    (∀ p ∈ d, ts p.1 = b0 p.1) → (L.parseAll ts d).1 = true ∧
    ∀ name, match d.lookup name with
      | none => (L.parseAll ts d).2 name = ts name
      | some f => (L.parseAll ts d).2 name =
          if L.blank (trimNewlines f.text) = true ∧ (b0 name).isSome = true then b0 name else some (trimNewlines f.text) := by
  intro d
  induction d with
  | nil => intro ts _ _ _; exact ⟨rfl, fun name => rfl⟩
  | cons a d ih =>
    intro ts hd hp hb
    obtain ⟨a, f⟩ := a
    rw [List.map_cons, List.nodup_cons] at hd
    have h1 : L.parses (trimNewlines f.text) = true := hp _ (List.mem_cons_self ..) _ (trimmed_trim _)
    have hba : ts a = b0 a := hb _ (List.mem_cons_self ..)
    obtain ⟨ts', hdef, hts'a, hts'⟩ : ∃ ts', L.define ts a (trimNewlines f.text) = some ts' ∧
        ts' a = (if L.blank (trimNewlines f.text) = true ∧ (b0 a).isSome = true then b0 a else some (trimNewlines f.text)) ∧
        ∀ n, n ≠ a → ts' n = ts n := by
      by_cases hbl : L.blank (trimNewlines f.text) = true ∧ (b0 a).isSome = true
      · refine ⟨ts, ?_, ?_, fun _ _ => rfl⟩
        · simp [Lang.define, h1, hba, hbl]
        · rw [if_pos hbl, hba]
      · refine ⟨Cache.set ts a (some (trimNewlines f.text)), ?_, ?_, ?_⟩
        · rw [Lang.define, if_pos h1, if_neg]
          rw [Bool.and_eq_true, hba]
          exact hbl
        · rw [if_neg hbl]; simp [Cache.set]
        · intro n hn; simp [Cache.set, hn]
    have hr : L.parseAll ts ((a, f) :: d) = L.parseAll ts' d := by rw [Lang.parseAll]; simp only [hdef]
    obtain ⟨h2, h3⟩ := ih ts' hd.2 (fun p hp' => hp p (List.mem_cons_of_mem _ hp')) (fun p hp' => by
      rw [hts' _ (by rintro rfl; exact hd.1 (List.mem_map.2 ⟨p, hp', rfl⟩))]
      exact hb p (List.mem_cons_of_mem _ hp'))
    rw [hr]
    refine ⟨h2, fun name => ?_⟩
    rw [lookup_cons]
    by_cases e : name = a
    · subst e
      have := h3 name
      rw [lookup_none hd.1] at this
      simp only at this
      simp only [if_true]
      rw [this, hts'a]
    · rw [if_neg e]
      have := h3 name
      cases hl : d.lookup name with
      | none =>
        rw [hl] at this
        simp only at this ⊢
        rw [this, hts' name e]
      | some g =>
        rw [hl] at this
        exact this

theorem parseAll_bad {L : Lang} : ∀ (d : Dir) (ts : TSet), (∃ p ∈ d, L.parses (trimNewlines p.2.text) = false) →
    (L.parseAll ts d).1 = false := by
  intro d
  induction d with
  | nil => intro ts ⟨p, hp, _⟩; cases hp
  | cons a d ih =>
    intro ts ⟨p, hp, hn⟩
    obtain ⟨a, f⟩ := a
    rw [Lang.parseAll]
    cases hdef : L.define ts a (trimNewlines f.text) with
    | none => rfl
    | some ts' =>
      simp only
      rcases List.mem_cons.1 hp with rfl | hp
      · simp [Lang.define, hn] at hdef
      · exact ih ts' ⟨p, hp, hn⟩

theorem not_allParse {L : Lang} {d : Dir} (h : ¬ AllParse L d) : ∃ p ∈ d, L.parses (trimNewlines p.2.text) = false := by
  apply Classical.byContradiction
  intro hn
  refine h fun p hp t ht => ?_
  have := fun e => hn ⟨p, hp, e⟩
  rw [trimmed_unique ht (trimmed_trim _)]
  simpa using this

/-- The latest state of a history. -/
def latest : List Dir → Dir
  | [] => []
  | d :: _ => d

/-- What holds between loads. -/
structure Inv (L : Lang) (builtin : TSet) (d : Dir) (e : Eng) : Prop where
  times : ∀ name, e.modTimes name = (d.lookup name).map (·.mtime)
  used : AllParse L d → InUse L builtin d e.tmpl

theorem Inv.reload {L : Lang} {builtin : TSet} {d0 d : Dir} {e : Eng} (hi : Inv L builtin d0 e) (hd : (d.map (·.1)).Nodup)
    (ev : Evolves d0 d) (hr : (checkTimes e.modTimes false d).1 = false) : ∀ name, d.lookup name = d0.lookup name := by
  rw [checkTimes_reload d hd] at hr
  intro name
  cases h0 : d0.lookup name with
  | some f0 =>
    obtain ⟨f, h1, h2, h3⟩ := ev name f0 h0
    obtain ⟨last, h4, h5⟩ := hr.2 _ (lookup_mem h1)
    rw [hi.times, h0] at h4
    simp only [Option.map_some, Option.some.injEq] at h4
    rw [h1, h3 (by simp only at h5; omega)]
  | none =>
    cases h : d.lookup name with
    | none => rfl
    | some f =>
      obtain ⟨last, h4, h5⟩ := hr.2 _ (lookup_mem h)
      rw [hi.times, h0] at h4
      cases h4

theorem Inv.parse {L : Lang} {d0 d : Dir} (h0 : (d0.map (·.1)).Nodup)
    (h : ∀ name, d.lookup name = d0.lookup name) (hp : AllParse L d) : AllParse L d0 := by
  intro p hp' t ht
  have := mem_lookup h0 hp'
  rw [← h] at this
  exact hp _ (lookup_mem this) t ht

theorem Inv.load {L : Lang} {builtin : TSet} {d0 d : Dir} {e : Eng} (hi : Inv L builtin d0 e) (h0 : (d0.map (·.1)).Nodup)
    (hd : (d.map (·.1)).Nodup) (ev : Evolves d0 d) :
    Inv L builtin d (L.loadTemplates builtin d e).2 ∧ (AllParse L d → (L.loadTemplates builtin d e).1 = true) ∧
    (AllParse L d0 → ¬ AllParse L d → (L.loadTemplates builtin d e).1 = false) := by
  have htimes : ∀ name, (checkTimes e.modTimes false d).2 name = (d.lookup name).map (·.mtime) := by
    intro name
    rw [checkTimes_times d hd]
    cases h : d.lookup name with
    | some f => rfl
    | none =>
      simp only [Option.map_none]
      rw [hi.times]
      cases h0 : d0.lookup name with
      | none => rfl
      | some f0 =>
        obtain ⟨f, h1, -⟩ := ev name f0 h0
        rw [h] at h1; cases h1
  rw [Lang.loadTemplates]
  simp only
  split
  · refine ⟨⟨htimes, fun hp name => ?_⟩, fun hp => (parseAll_ok builtin d builtin hd hp fun _ _ => rfl).1,
      fun _ hn => parseAll_bad d builtin (not_allParse hn)⟩
    have := (parseAll_ok builtin d builtin hd hp fun _ _ => rfl).2 name
    cases h : d.lookup name with
    | none => rw [h] at this; exact this
    | some f => rw [h] at this; exact ⟨_, trimmed_trim _, this⟩
  · next hr =>
    have hl := hi.reload hd ev (by simpa using hr)
    refine ⟨⟨htimes, fun hp name => ?_⟩, fun _ => rfl, fun hp0 hn => ?_⟩
    · rw [hl name]
      exact hi.used (Inv.parse h0 hl hp) name
    · exact (hn (Inv.parse hd (fun n => (hl n).symm) hp0)).elim

theorem Inv.history {L : Lang} {builtin : TSet} : ∀ ds : List Dir, History ds →
    Inv L builtin (latest ds) (after L builtin ds) ∧ ((latest ds).map (·.1)).Nodup := by
  intro ds
  induction ds with
  | nil => intro _; exact ⟨⟨fun _ => rfl, fun _ name => rfl⟩, by simp [latest]⟩
  | cons d ds ih =>
    intro h
    cases ds with
    | nil =>
      refine ⟨(Inv.load (L := L) (builtin := builtin) (d0 := []) (e := Eng.new builtin) ⟨fun _ => rfl, fun _ name => rfl⟩ (by simp) h ?_).1, h⟩
      intro name f hf
      cases hf
    | cons d0 ds =>
      obtain ⟨h1, h2, h3⟩ := h
      obtain ⟨i1, i2⟩ := ih h3
      exact ⟨(i1.load i2 h1 h2).1, h1⟩

end Booklit.Templates
