import Verif.Lemmas.IncludesEval
import Verif.Lemmas.ErasedLoad
import Verif.Lemmas.CommandL

/-!
Loading of two books that differ only in which sections have files of their own.
-/

namespace Booklit

/-- A target with nothing in it that shows a file. -/
def Target.Quiet (t : Target) : Prop := t.title.quiet = true ∧ t.content.quiet = true

theorem andThen_parts {a b : Option (List Target)} {ts : List Target} (e : andThen a b = some ts) :
    ∃ x y, a = some x ∧ b = some y ∧ ts = x ++ y := by
  cases a <;> cases b <;> simp [andThen] at e
  exact ⟨_, _, rfl, rfl, e.symm⟩

theorem andThen_quiet {a b : Option (List Target)} (ha : ∀ ts, a = some ts → ∀ t ∈ ts, t.Quiet) (hb : ∀ ts, b = some ts → ∀ t ∈ ts, t.Quiet)
    (ts : List Target) (e : andThen a b = some ts) : ∀ t ∈ ts, t.Quiet := by
  obtain ⟨x, y, h1, h2, rfl⟩ := andThen_parts e
  intro t ht
  rcases List.mem_append.1 ht with h | h
  · exact ha _ h1 t h
  · exact hb _ h2 t h

theorem targetsL_quiet {cs : List Content} (h : ∀ c ∈ cs, ∀ ts, targets c = some ts → ∀ t ∈ ts, t.Quiet) :
    ∀ ts, targetsL cs = some ts → ∀ t ∈ ts, t.Quiet := by
  induction cs with
  | nil => intro ts e; cases e; simp
  | cons c cs ih => exact andThen_quiet (h c (by simp)) (ih fun x hx => h x (by simp [hx]))

theorem targets_quiet (c : Content) : c.quiet = true → ∀ ts, targets c = some ts → ∀ t ∈ ts, t.Quiet := by
  induction c using Content.ind with
  | nil | str | ref | sect | toc | image | lazy => intro _ ts e; cases e; try simp
  | target n l ti c h1 h2 =>
    intro h ts e
    cases e
    simp only [Content.quiet, Content.all, Bool.and_eq_true] at h
    simp only [List.mem_singleton, forall_eq]
    exact ⟨h.1.2, h.2⟩
  | seq cs ih => intro h; exact targetsL_quiet fun c hc => ih c hc (quiet_iff_seq.1 h c hc)
  | para cs ih => intro h; exact targetsL_quiet fun c hc => ih c hc (quiet_iff_para.1 h c hc)
  | pre cs ih => intro h; exact targetsL_quiet fun c hc => ih c hc (quiet_iff_pre.1 h c hc)
  | list cs o ih => intro h; exact targetsL_quiet fun c hc => ih c hc (quiet_iff_list.1 h c hc)
  | styled st b c ps ih ihp =>
    intro h
    simp only [Content.quiet, Content.all, Bool.and_eq_true, Tmpl.allP_mem] at h
    refine andThen_quiet (ih h.1.2) ?_
    have h2 := h.2
    clear ih h
    induction ps with
    | nil => intro ts e; cases e; simp
    | cons p ps ih' =>
      obtain ⟨k, v⟩ := p
      refine andThen_quiet ?_ (ih' (fun x hx => ihp x (by simp [hx])) fun x hx => h2 x (by simp [hx]))
      split
      · intro ts e; cases e; simp
      · exact ihp (k, v) (by simp) (h2 (k, v) (by simp))
  | link c u ih | aux c ih =>
    intro h
    simp only [Content.quiet, Content.all, Bool.and_eq_true] at h
    exact ih h.2
  | table rs ih =>
    intro h
    replace h := quiet_iff_table.1 h
    show ∀ ts, targetsR rs = some ts → _
    induction rs with
    | nil => intro ts e; cases e; simp
    | cons r rs ih' =>
      exact andThen_quiet (targetsL_quiet fun c hc => ih r (by simp) c hc (h r (by simp) c hc))
        (ih' (fun x hx => ih x (by simp [hx])) fun x hx => h x (by simp [hx]))
  | defs ds ih =>
    intro h
    replace h := quiet_iff_defs.1 h
    show ∀ ts, targetsD ds = some ts → _
    induction ds with
    | nil => intro ts e; cases e; simp
    | cons p ds ih' =>
      obtain ⟨a, b⟩ := p
      have h1 := ih (a, b) (by simp)
      have h2 := h (a, b) (by simp)
      exact andThen_quiet (andThen_quiet (h1.1 h2.1) (h1.2 h2.2))
        (ih' (fun x hx => ih x (by simp [hx])) fun x hx => h x (by simp [hx]))

theorem secTargets_quiet {x : Sec} (q : x.Quiet) : ∀ ts, x.targets = some ts → ∀ t ∈ ts, t.Quiet := by
  refine andThen_quiet (targets_quiet _ q.title) (andThen_quiet (targets_quiet _ q.body) (targetsL_quiet fun c hc => ?_))
  obtain ⟨p, hp, rfl⟩ := List.mem_map.1 hc
  exact targets_quiet _ (q.partials p hp)

/-- What collecting keeps. -/
theorem addTargets_parted (i : Nat) (ts : List Target) : ∀ s s' : St, Parted s s' → (∀ t ∈ ts, t.Quiet) →
    Parted { s with heap := s.heap.addTargets i ts } { s' with heap := s'.heap.addTargets i ts } ∧
    Grown s s' { s with heap := s.heap.addTargets i ts } { s' with heap := s'.heap.addTargets i ts } := by
  induction ts with
  | nil => intro s s' hp _; exact ⟨hp, .refl⟩
  | cons t ts ih =>
    intro s s' hp hq
    obtain ⟨h1, h2⟩ := hp.upd (i := i) (f := fun s => { s with tags := s.tags ++ [⟨t.name, t.title, some i, t.name, t.content, t.loc⟩] })
      (f' := fun s => { s with tags := s.tags ++ [⟨t.name, t.title, some i, t.name, t.content, t.loc⟩] })
      ⟨fun _ => rfl, fun _ => rfl, fun _ h => h⟩ ⟨fun _ => rfl, fun _ => rfl, fun _ h => h⟩
      (by have := hp.twin i
          simp only [Sec.anon, Sec.mk.injEq] at this ⊢
          simp [this])
      (by obtain ⟨a, b, c, d, e⟩ := hp.quiet i
          refine ⟨a, b, ?_, d, e⟩
          intro g hg
          rcases List.mem_append.1 hg with hg | hg
          · exact c g hg
          · rw [List.mem_singleton.1 hg]
            exact hq t (by simp))
    obtain ⟨h3, h4⟩ := ih _ _ h1 fun t ht => hq t (by simp [ht])
    exact ⟨h3, h2.trans h4⟩

theorem collect_parted : ∀ (n N : Nat), n ≤ N → ∀ (s s' : St) (i : Nat) (k : Heap), Parted s s' → collectSection n s.heap i = .ok k →
    ∃ k', collectSection N s'.heap i = .ok k' ∧ Parted { s with heap := k } { s' with heap := k' } ∧
      Grown s s' { s with heap := k } { s' with heap := k' } := by
  intro n
  induction n with
  | zero => intro N _ s s' i k _ e; cases e
  | succ n ih =>
    intro N hN s s' i k hp e
    obtain ⟨N, rfl⟩ : ∃ m, N = m + 1 := ⟨N - 1, by omega⟩
    have ht : (s'.heap.get i).targets = (s.heap.get i).targets := by
      rw [Sec.targets, Sec.targets, hp.twin.title, hp.twin.body, hp.twin.partials]
    rw [collectSection] at e ⊢
    rw [ht, hp.twin.children]
    cases hts : (s.heap.get i).targets with
    | none => rw [hts] at e; cases e
    | some ts =>
      rw [hts] at e
      dsimp only at e ⊢
      obtain ⟨h1, h2⟩ := addTargets_parted i ts s s' hp (secTargets_quiet (hp.quiet i) ts hts)
      have loop : ∀ (cs : List Nat) (u u' : St) (k : Heap), Parted u u' → collectLoop (collectSection n) u.heap cs = .ok k →
          ∃ k', collectLoop (collectSection N) u'.heap cs = .ok k' ∧ Parted { u with heap := k } { u' with heap := k' } ∧
            Grown u u' { u with heap := k } { u' with heap := k' } := by
        intro cs
        induction cs with
        | nil => intro u u' k hu e; cases e; exact ⟨_, rfl, hu, .refl⟩
        | cons c cs ihc =>
          intro u u' k hu e
          rw [collectLoop] at e ⊢
          cases hv : collectSection n u.heap c with
          | ok v =>
            rw [hv] at e
            obtain ⟨v', e1, e2, e3⟩ := ih N (by omega) u u' c v hu hv
            obtain ⟨k', e4, e5, e6⟩ := ihc { u with heap := v } { u' with heap := v' } k e2 e
            exact ⟨k', by rw [e1]; exact e4, e5, e3.trans e6⟩
          | err => rw [hv] at e; cases e
          | panic => rw [hv] at e; cases e
          | more => rw [hv] at e; cases e
      obtain ⟨k', e4, e5, e6⟩ := loop _ { s with heap := s.heap.addTargets i ts } { s' with heap := s'.heap.addTargets i ts } k h1 e
      exact ⟨k', e4, e5, h2.trans e6⟩

/-- Loading a file. -/
theorem FilesSplit.loadTrees {W : World} {E : Nat} {B : Str → Prop} {P P' : Trees} (hW : ∀ p n, W.foreign p n = none) (hF : FilesSplit E B P P')
    {path : Str} (hne : path ≠ []) (hB : B path) {ps : List Nat} (h0 : 0 ∈ ps) {m K : Nat} (hK : (E + 1) * m ≤ K) {s s' : St} (hp : Parted s s')
    {o : Option Nat} (ho : ∀ p, o = some p → p < s.heap.length) :
    Pair s s' (fun i j => j = i ∧ i = s.heap.length) (loadTrees W P m o path ps) (loadTrees W P' K o path ps) := by
  refine (hF.eval hW hne hB h0 hK hp ho).bind fun i j t t' ht _ hij => ?_
  obtain ⟨rfl, hi⟩ := hij
  intro a u e
  have hmK : m ≤ K := by
    have : m ≤ (E + 1) * m := Nat.le_mul_of_pos_left m (by omega)
    omega
  cases hc : t.heap.collect m j with
  | ok k =>
    dsimp only at e
    rw [hc] at e
    cases e
    obtain ⟨k', e1, e2, e3⟩ := collect_parted m K hmK t t' j k ht hc
    exact ⟨j, { t' with heap := k' }, by dsimp only; rw [Heap.collect, e1], e2, e3, rfl, hi⟩
  | err => dsimp only at e; rw [hc] at e; cases e
  | panic => dsimp only at e; rw [hc] at e; cases e
  | more => dsimp only at e; rw [hc] at e; cases e

/-! ### Real files -/

/-- Heaps of two such books, with places. -/
structure Heap.Apart (h h' : Heap) : Prop where
  parted : Parted ⟨h.erased, []⟩ ⟨h'.erased, []⟩

theorem Heap.Apart.nil : Heap.Apart [] [] :=
  ⟨⟨rfl, fun _ => rfl, fun i p e => (by simp [Heap.erased, Heap.get, Sec.fresh] at e), fun i hi => (by simp [Heap.erased] at hi),
    fun i => ⟨rfl, rfl, (by simp [Heap.erased, Heap.get, Sec.fresh]), (by simp [Heap.erased, Heap.get, Sec.fresh]), rfl, rfl⟩⟩⟩

theorem Parted.recache {s s' : St} (hp : Parted s s') (c c' : List (Str × Node × Nat)) : Parted ⟨s.heap, c⟩ ⟨s'.heap, c'⟩ :=
  ⟨hp.length, hp.twin, hp.parents, hp.base, hp.quiet⟩

/-- Loading a file of one book and of the other. -/
theorem load_apart {W W' : World} {E : Nat} {B : Str → Prop} (hr : W'.registry = W.registry) (hb : W'.brokenOk = W.brokenOk)
    (hW : ∀ p n, W.foreign p n = none) (hW' : ∀ p n, W'.foreign p n = none) (hF : FilesSplit E B (treesOf W.fs) (treesOf W'.fs))
    {path : Str} (hne : path ≠ []) (hB : B path) {m K : Nat} (hK : (E + 1) * m ≤ K) {s s' : St} (hs : s.heap.Apart s'.heap)
    (hf : Fits W s.cache) (hf' : Fits W' s'.cache) {o : Option Nat} (ho : ∀ p, o = some p → p < s.heap.length) {i : Nat} {t : St}
    (e : loadFile W m o path [0] s = (.ok i, t)) :
    ∃ t', loadFile W' K o path [0] s' = (.ok i, t') ∧ t.heap.Apart t'.heap ∧ i = s.heap.length ∧
      Fits W t.cache ∧ Fits W' t'.cache ∧ i < t.heap.length := by
  have bl : Blind W.foreign := fun p n f hf => by rw [hW] at hf; cases hf
  have bl' : Blind W'.foreign := fun p n f hf => by rw [hW'] at hf; cases hf
  have ed : W'.dry = W.dry := by
    have : W'.foreign = W.foreign := by funext p n; rw [hW, hW']
    rw [World.dry, World.dry, hr, hb, this]
  have a := Fade.loadFile bl m o path [0] s ⟨s.heap.erased, []⟩ ⟨rfl, hf⟩
  have b := Fade.loadFile bl' K o path [0] s' ⟨s'.heap.erased, []⟩ ⟨rfl, hf'⟩
  rw [ed] at b
  rw [e] at a
  generalize hx : loadTrees W.dry (treesOf W.fs) m o path [0] ⟨s.heap.erased, []⟩ = x at a
  obtain ⟨x, u⟩ := x
  obtain ⟨a1, a2⟩ := a
  cases x with
  | ok j =>
    obtain rfl : i = j := Eq.symm a1
    obtain ⟨j', u', e1, e2, _, rfl, e3⟩ := hF.loadTrees (W := W.dry) hW hne hB (by simp) hK hs.parted
      (fun p hp => by simpa [Heap.erased] using ho p hp) i u hx
    rw [e1] at b
    generalize hy : loadFile W' K o path [0] s' = y at b
    obtain ⟨y, t'⟩ := y
    obtain ⟨b1, b2⟩ := b
    cases y with
    | ok z =>
      obtain rfl : z = j' := Eq.symm b1
      refine ⟨t', rfl, ⟨?_⟩, by simpa [Heap.erased] using e3, a2.fits, b2.fits, loadFile_lt e⟩
      have := e2.recache [] []
      rw [a2.heap, b2.heap] at this
      exact this
    | err => exact b1.elim
    | panic => exact b1.elim
    | more => exact b1.elim
  | err => exact a1.elim
  | panic => exact a1.elim
  | more => exact a1.elim

end Booklit
