import Verif.Lemmas.SafeEval
import Verif.Lemmas.TargetsL
import Verif.Props.Parser

/-!
Files of tame documents: no crash, and the end of loading.
-/

namespace Booklit

variable {W : World} {A : Prop}

/-- Cached nodes are those of the files. -/
def CacheOk (W : World) (s : St) : Prop := ∀ e ∈ s.cache, W.Wrote e.1 e.2.1

theorem CacheOk.cached {s : St} (h : CacheOk W s) {path : Str} {t : Nat} {n : Node} (e : cached s.cache path t = some n) :
    W.Wrote path n := by
  rw [Booklit.cached] at e
  cases hl : s.cache.lookup path with
  | none => rw [hl] at e; cases e
  | some x =>
    rw [hl] at e
    obtain ⟨m, u⟩ := x
    dsimp only at e
    split at e
    · cases e
      have : (path, n, u) ∈ s.cache := by
        revert hl
        generalize s.cache = cs
        induction cs with
        | nil => intro h; cases h
        | cons c cs ih =>
          obtain ⟨a, b⟩ := c
          intro h
          rw [List.lookup_cons] at h
          split at h
          · next e => cases h; rw [beq_iff_eq] at e; subst e; exact List.mem_cons_self
          · exact List.mem_cons_of_mem _ (ih h)
      exact h _ this
    · cases e

theorem CacheOk.nodeOf {s : St} (h : CacheOk W s) {path : Str} {info : FileInfo} {n : Node} (hf : W.fs path = some info)
    (e : nodeOf s path info = .ok n) : W.Wrote path n := by
  rw [Booklit.nodeOf] at e
  cases hc : Booklit.cached s.cache path info.mtime with
  | some m => rw [hc] at e; cases e; exact h.cached hc
  | none => rw [hc] at e; exact ⟨info, hf, e⟩

theorem CacheOk.remember {s : St} (h : CacheOk W s) {path : Str} {n : Node} (t : Nat) (hn : W.Wrote path n) :
    CacheOk W (remember path n t s).2 := by
  intro e he
  rcases List.mem_cons.1 he with rfl | he
  · exact hn
  · exact h e (List.mem_filter.1 he).1

def KeepsCache (W : World) (_ : Nat) (s s' : St) : Prop := s.heap.length ≤ s'.heap.length ∧ (CacheOk W s → CacheOk W s')

theorem KeepsCache.inv (W : World) : EvalInv W (fun _ => True) (KeepsCache W) where
  refl := fun _ s => ⟨Nat.le_refl _, id⟩
  trans := fun h h' => ⟨Nat.le_trans h.1 h'.1, h'.2 ∘ h.2⟩
  len := fun h => h.1
  upd := fun _ _ => ⟨by simp [Heap.length_upd], id⟩
  content := ContentInv.true W
  body := fun _ _ _ => ⟨by simp [Heap.length_upd], id⟩
  failed := fun {i s s'} _ h => by
    have hl := h.1
    simp [St.inline] at hl
    exact ⟨by omega, h.2⟩
  inline := fun {i s s'} _ h => by
    have hl := h.1
    simp [St.inline] at hl
    exact ⟨by simp [St.linkInline, Heap.length_upd]; omega, h.2⟩
  failedFile := fun {i s s' path} _ h => by
    have hl := h.1
    simp [St.file] at hl
    exact ⟨by omega, h.2⟩
  file := fun {i s s' path} _ _ h => by
    have hl := h.1
    simp [St.file] at hl
    exact ⟨by simp [St.link, Heap.length_upd]; omega, h.2⟩
  remember := fun {i s s'} path info n hf hn h => ⟨h.1, fun hc => (h.2 hc).remember _ (hc.nodeOf hf hn)⟩

theorem Reach.cacheOk {s : St} (h : Reach W s) : CacheOk W s := by
  induction h with
  | start => intro e he; cases he
  | @load s n parent path plugins _ hp h0 ih =>
    have heval : CacheOk W (evalFile W n parent path plugins s).2 := by
      rcases keeps_file (KeepsCache.inv W) n parent path plugins s with ⟨e, h⟩ | h | h | ⟨s', ⟨h1, h2⟩ | ⟨h1, h2, h3⟩⟩
      · rw [h]; exact ih
      · rw [h]; exact ih
      · rw [h]; exact ih
      · rw [h1]; exact h2.2 ih
      · rw [h2]; exact h3.2 ih
    rw [loadFile_run]
    revert heval
    cases evalFile W n parent path plugins s with
    | mk r s' =>
      cases r with
      | ok i =>
        intro heval
        dsimp only
        cases hc : s'.heap.collect n i <;> exact heval
      | _ => exact id

theorem parseFile_ends (path : Str) (info : FileInfo) : (∃ n, parseFile path info = .ok n) ∨ ∃ e, parseFile path info = .err e := by
  rw [parseFile]
  cases info.data with
  | none => exact .inr ⟨_, rfl⟩
  | some d =>
    obtain ⟨o, ho, h⟩ := Props.C01_parse_terminates d
    have : Peg.parseDoc d = some o := ho _ (Nat.le_refl _)
    dsimp only
    rw [this]
    rcases h with ⟨t, rfl⟩ | ⟨p, rfl⟩
    · exact .inl ⟨_, rfl⟩
    · exact .inr ⟨_, rfl⟩

/-- States between evaluations. -/
structure Good (W : World) (s : St) : Prop where
  sound : Sound s.heap
  cache : CacheOk W s

theorem file_both (hW : W.baseOnly) {I : Str → Prop} {k k' : Nat} {parent : Option Nat} {path : Str}
    {plugins : List Nat} (ht : ∀ n, W.Wrote path n → n.tame = true) (hp : path ≠ [] ∨ parent = none) (hinc : IncRel A W.Wrote W path I k k')
    (hI : ∀ n, W.Wrote path n → IncOk I path n) (s : St) (hs : Good W s) (hpar : ∀ p, parent = some p → p < s.heap.length)
    (h0 : plugins.head? = some 0) :
    (evalFile W (k + 1) parent path plugins s).2 = (evalFile W (k' + 1) parent path plugins s).2 ∧
    Good W (evalFile W (k + 1) parent path plugins s).2 ∧
    RRel A (· = ·) (evalFile W (k + 1) parent path plugins s).1 (evalFile W (k' + 1) parent path plugins s).1 := by
  rw [evalFile_run, evalFile_run]
  cases hf : W.fs path with
  | none => exact ⟨rfl, hs, .err _⟩
  | some info =>
    dsimp only
    have hnode : (∃ n, nodeOf s path info = .ok n) ∨ ∃ e, nodeOf s path info = .err e := by
      rw [nodeOf]
      cases cached s.cache path info.mtime with
      | some n => exact .inl ⟨n, rfl⟩
      | none => exact parseFile_ends path info
    rcases hnode with ⟨n, hn⟩ | ⟨e, hn⟩
    · rw [hn]
      dsimp only
      have hw := hs.cache.nodeOf hf hn
      have hok : Ok W.Wrote path s.heap.length (s.file parent path plugins) := by
        have e0 : Heap.get (s.file parent path plugins).heap s.heap.length = { Sec.fresh parent path with plugins := plugins } :=
          Heap.get_append_eq _ _
        refine ⟨by simp [St.file], hs.sound.add _ hpar h0, hs.cache, ?_⟩
        by_cases hp' : path = []
        · have hpn : parent = none := hp.resolve_left (fun h => h hp')
          subst hp' hpn
          exact .top (by rw [e0]; rfl) (by rw [e0]; rfl)
        · have : FileOf (s.file parent path plugins).heap s.heap.length (Heap.get (s.file parent path plugins).heap s.heap.length).path :=
            .own (by rw [e0]; exact hp')
          rw [e0] at this
          exact this
      have hrel : EvRel A W.Wrote path n (evalNode W k (incl W k) n) (evalNode W k' (incl W k') n) :=
        ⟨both_node hW hinc n (ht n hw) (hI n hw), node_ok (Frame.inv W) (keeps_incl (Frame.inv W) k) n⟩
      obtain ⟨e, hg, hr⟩ := both_body hrel s.heap.length (s.file parent path plugins) hok
      revert e hg hr
      cases evalBody (evalNode W k (incl W k) n) s.heap.length (s.file parent path plugins) with
      | mk r s1 =>
        cases evalBody (evalNode W k' (incl W k') n) s.heap.length (s.file parent path plugins) with
        | mk r' s1' =>
          intro e hg hr
          dsimp only at e hg hr
          subst e
          have hc : CacheOk W s1 := hg.cache
          cases hr with
          | ok _ => exact ⟨rfl, ⟨hg.sound, hc.remember _ hw⟩, .ok rfl⟩
          | err e => exact ⟨rfl, ⟨hg.sound, hc⟩, .err e⟩
          | more h => exact ⟨rfl, ⟨hg.sound, hc⟩, .more h⟩
    · rw [hn]
      exact ⟨rfl, hs, .err e⟩

/-- From files to the callback. -/
theorem incl_both {k k' i : Nat} {p q : Str} (h : ∀ s, Good W s → i < s.heap.length →
      (evalFile W k (some i) q [0] s).2 = (evalFile W k' (some i) q [0] s).2 ∧
      Good W (evalFile W k (some i) q [0] s).2 ∧
      RRel A (· = ·) (evalFile W k (some i) q [0] s).1 (evalFile W k' (some i) q [0] s).1) :
    Both A (Ok W.Wrote p i) (incl W k i q) (incl W k' i q) fun _ _ => True := by
  have hfile : Both A (Ok W.Wrote p i) (evalFile W k (some i) q [0]) (evalFile W k' (some i) q [0]) (· = ·) := by
    intro s hs
    obtain ⟨e, hg, hr⟩ := h s ⟨hs.sound, hs.cache⟩ hs.lt
    refine ⟨e, ?_, hr⟩
    have hold : s.heap.length ≤ (evalFile W k (some i) q [0] s).2.heap.length ∧ ∀ j, j < s.heap.length →
        (evalFile W k (some i) q [0] s).2.heap.get j = s.heap.get j := by
      rcases keeps_file (Frame.inv W) k (some i) q [0] s with ⟨e, h⟩ | h | h | ⟨s', ⟨h1, h2⟩ | ⟨h1, h2, h3⟩⟩
      · rw [h]; exact ⟨Nat.le_refl _, fun _ _ => rfl⟩
      · rw [h]; exact ⟨Nat.le_refl _, fun _ _ => rfl⟩
      · rw [h]; exact ⟨Nat.le_refl _, fun _ _ => rfl⟩
      · rw [h1]; have := Frame.new h2; exact ⟨Nat.le_of_lt this.1, this.2⟩
      · rw [h2]; have := Frame.new h3; exact ⟨Nat.le_of_lt this.1, this.2⟩
    have hlt := hs.lt
    exact ⟨by omega, hg.sound, hg.cache, hs.file.keep hs.sound (fun j hj => by rw [hold.2 j hj]; exact ⟨rfl, rfl⟩) hs.lt⟩
  rw [incl, incl]
  refine both_bind hfile fun a b hab => ?_
  subst hab
  exact both_weaken (both_upd _ fun x => ⟨rfl, rfl, id⟩) fun _ _ _ => trivial

theorem RRel.eq {α : Type} {r r' : Res α} (h : RRel A (· = ·) r r') : r = r' ∧ r ≠ .panic ∧ (r = .more → A) := by
  cases h with
  | ok h => exact ⟨by rw [h], by simp, fun h => by cases h⟩
  | err e => exact ⟨rfl, by simp, fun h => by cases h⟩
  | more h => exact ⟨rfl, by simp, fun _ => h⟩

/-- Evaluation of tame files does not crash. -/
theorem evalFile_safe (hW : W.baseOnly) (ht : W.tame) : ∀ (n : Nat) (parent : Option Nat) (path : Str) (plugins : List Nat),
    (path ≠ [] ∨ parent = none) → plugins.head? = some 0 → ∀ s, Good W s → (∀ p, parent = some p → p < s.heap.length) →
    Good W (evalFile W n parent path plugins s).2 ∧
    RRel True (· = ·) (evalFile W n parent path plugins s).1 (evalFile W n parent path plugins s).1
  | 0, parent, path, plugins, _, _, s, hs, _ => ⟨hs, .more trivial⟩
  | n + 1, parent, path, plugins, hp, h0, s, hs, hpar => by
    refine (file_both (A := True) (I := fun _ => True) hW (ht path) hp ?_ (fun _ _ _ _ => .inl fun _ => trivial) s hs hpar h0).2
    intro i q hq _
    refine incl_both fun s hs hi => ⟨rfl, evalFile_safe hW ht n (some i) q [0] (.inl hq) rfl s hs fun p hp => ?_⟩
    cases hp
    exact hi

/-- Tame files with chains of at most `m` files, the first of which is `p`. -/
def World.Short (W : World) : Nat → Str → Prop
  | 0, _ => False
  | m + 1, p => ∀ n, W.Wrote p n → n.tame = true ∧ ∀ a ∈ n.includes, ∃ t, a.literal = some t ∧ W.Short m (joinPath (dirPath p) t)

theorem World.Short.mono : ∀ {m m' : Nat} {p : Str}, W.Short m p → m ≤ m' → W.Short m' p
  | 0, _, _, h, _ => h.elim
  | m + 1, 0, _, _, hm => by omega
  | m + 1, m' + 1, p, h, hm => fun n hn => ⟨(h n hn).1, fun a ha => by
    obtain ⟨t, h1, h2⟩ := (h n hn).2 a ha
    exact ⟨t, h1, h2.mono (by omega)⟩⟩

theorem World.acyclic.short (ht : W.tame) {rank : Str → Nat} (hr : W.acyclic rank) : ∀ (m : Nat) {p : Str}, rank p < m → W.Short m p
  | 0, _, h => by omega
  | m + 1, p, h => fun n hn => ⟨ht p n hn, fun a ha => by
    obtain ⟨t, h1, h2⟩ := hr p n hn a ha
    exact ⟨t, h1, acyclic.short ht hr m (by omega)⟩⟩

/-- Evaluation of tame files that include each other without cycles ends. -/
theorem evalFile_ends (hW : W.baseOnly) : ∀ (m : Nat) (parent : Option Nat)
    (path : Str) (plugins : List Nat), W.Short m path → (path ≠ [] ∨ parent = none) → plugins.head? = some 0 → ∀ (k k' : Nat),
    m ≤ k + 1 → m ≤ k' + 1 → ∀ s, Good W s → (∀ p, parent = some p → p < s.heap.length) →
    (evalFile W (k + 1) parent path plugins s).2 = (evalFile W (k' + 1) parent path plugins s).2 ∧
    Good W (evalFile W (k + 1) parent path plugins s).2 ∧
    RRel False (· = ·) (evalFile W (k + 1) parent path plugins s).1 (evalFile W (k' + 1) parent path plugins s).1
  | 0, _, _, _, h, _, _, _, _, _, _, _, _, _ => h.elim
  | m + 1, parent, path, plugins, hm, hp, h0, k, k', hk, hk', s, hs, hpar => by
    refine file_both (A := False) (I := W.Short m) hW (fun n hn => (hm n hn).1) hp ?_ (fun n hn a ha => .inr ((hm n hn).2 a ha)) s hs hpar h0
    intro i q hq hlt
    have h1 : m ≠ 0 := by
      intro h
      subst h
      exact hlt
    obtain ⟨k1, rfl⟩ : ∃ k1, k = k1 + 1 := ⟨k - 1, by omega⟩
    obtain ⟨k2, rfl⟩ : ∃ k2, k' = k2 + 1 := ⟨k' - 1, by omega⟩
    refine incl_both fun s hs hi => evalFile_ends hW m (some i) q [0] hlt (.inl hq) rfl k1 k2 (by omega) (by omega) s hs
      fun p hp => ?_
    cases hp
    exact hi

/-- Targets are found in any section whose contents are solid. -/
theorem SecOk.targets {x : Sec} (h : SecOk (fun c => c.solid = true) x) : ∃ ts, x.targets = some ts := by
  obtain ⟨ts, h, _⟩ := Sec.targets_parts 0 x h.contents
  exact ⟨ts, h⟩

theorem HeapOk.targets {h : Heap} (hs : HeapOk (fun c => c.solid = true) h) (i : Nat) : ∃ ts, (h.get i).targets = some ts := by
  by_cases hi : i < h.length
  · exact (hs i hi).targets
  · have : h.get i = Sec.fresh none [] := by simp [Heap.get, List.getD_eq_getElem?_getD, Nat.le_of_not_lt hi]
    rw [this]
    exact ⟨[], rfl⟩

theorem collect_noPanic : ∀ (n : Nat) (h : Heap) (i : Nat), HeapOk (fun c => c.solid = true) h → h.collect n i ≠ .panic ∧ ∀ e, h.collect n i ≠ .err e
  | 0, h, i, _ => ⟨by simp [Heap.collect, collectSection], by simp [Heap.collect, collectSection]⟩
  | n + 1, h, i, hs => by
    have hall : ∀ (cs : List Nat) (h : Heap), HeapOk (fun c => c.solid = true) h →
        h.collectAll n cs ≠ .panic ∧ ∀ e, h.collectAll n cs ≠ .err e := by
      intro cs
      induction cs with
      | nil => intro h hs; exact ⟨by simp [Heap.collectAll, collectLoop], by simp [Heap.collectAll, collectLoop]⟩
      | cons c cs ih =>
        intro h hs
        rw [collectAll_cons]
        have hc := collect_noPanic n h c hs
        cases hx : h.collect n c with
        | ok h1 => exact ih h1 ((collect_more n h c h1 hx).heapOk hs)
        | err e => exact absurd hx (hc.2 e)
        | panic => exact absurd hx hc.1
        | more => exact ⟨by simp [Res.bind], by simp [Res.bind]⟩
    rw [collect_succ]
    obtain ⟨ts, hts⟩ := hs.targets i
    rw [hts]
    exact hall _ _ ((MoreTags.addTargets h i ts).heapOk hs)

end Booklit
