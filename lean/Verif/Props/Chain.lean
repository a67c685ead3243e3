import Verif.Lemmas.ChainL
import Verif.Props.Outline
import Verif.Props.Safe

/-!
C36: a document that loads has no endless chain of includes.
-/

namespace Booklit.Props

open Booklit

/-- Loading a file shows what holds for its includes. -/
theorem loaded_includes {W : World} (hW : W.noNodes) {P : Str → Prop}
    (hP : ∀ p n, W.Wrote p n → (∀ a ∈ n.includes, ∀ t, a.literal = some t → P (joinPath (dirPath p) t)) → P p)
    {n : Nat} {path : Str} {plugins : List Nat} {s s' : St} {i : Nat} (hr : Reach W s) (h0 : plugins.head? = some 0)
    (hp : path ≠ []) (h : loadFile W n none path plugins s = (.ok i, s')) : P path := by
  obtain ⟨node, hw, _, hf⟩ := C34_outline hW hr h0 hp h
  exact hP _ _ hw fun a ha => Runs.included hP hf a (by simpa [includesAll] using ha)

/-- **C36**: if a document loads, then no chain of includes that starts at it goes on forever. So a file that includes
itself, directly or through others, never loads, and neither does one that leads to such a file. -/
theorem C36_no_cycle {W : World} (hW : W.noNodes) {n : Nat} {path : Str} {plugins : List Nat} {s s' : St} {i : Nat}
    (hr : Reach W s) (h0 : plugins.head? = some 0) (hp : path ≠ []) (h : loadFile W n none path plugins s = (.ok i, s')) :
    (¬ ∃ f : Nat → Str, f 0 = path ∧ ∀ k, W.Includes (f k) (f (k + 1))) ∧
    ∀ p q, W.IncludedBy path p → W.Includes p q → ¬ W.IncludedBy q p := by
  have hacc : Acc (fun q p => W.Includes p q) path := by
    refine loaded_includes hW (P := Acc fun q p => W.Includes p q) ?_ hr h0 hp h
    intro p n hw ih
    refine ⟨_, fun q hq => ?_⟩
    obtain ⟨n', hw', a, ha, t, ht, rfl⟩ := hq
    rw [Wrote.unique hw' hw] at ha
    exact ih a ha t ht
  have chain : ∀ p, Acc (fun q p => W.Includes p q) p → ∀ f : Nat → Str, f 0 = p → ¬ ∀ k, W.Includes (f k) (f (k + 1)) := by
    intro p ha
    induction ha with
    | intro p _ ih =>
      intro f h0 hk
      subst h0
      exact ih (f 1) (hk 0) (fun k => f (k + 1)) rfl fun k => hk (k + 1)
  refine ⟨fun ⟨f, h0, hk⟩ => chain path hacc f h0 hk, fun p q hpp hpq hqp => ?_⟩
  have hpa : Acc (fun q p => W.Includes p q) p := by
    clear hpq hqp
    induction hpp with
    | self => exact hacc
    | step _ h ih => exact ih.inv h
  have hloop : ∀ p, Acc (fun q p => W.Includes p q) p → ∀ q, W.Includes p q → ¬ W.IncludedBy q p := by
    intro p ha
    induction ha with
    | intro p _ ih =>
      intro q hpq hqp
      have turn : ∀ {x y z}, W.IncludedBy x y → W.Includes y z → ∃ w, W.Includes x w ∧ W.IncludedBy w z := by
        intro x y z hxy
        induction hxy generalizing z with
        | self => intro hz; exact ⟨z, hz, .self⟩
        | step _ h ih' =>
          intro hz
          obtain ⟨w, h1, h2⟩ := ih' h
          exact ⟨w, h1, .step h2 hz⟩
      obtain ⟨w, h1, h2⟩ := turn hqp hpq
      exact ih q hpq w h1 h2
  exact hloop p hpa q hpq hqp

/-- Where no chain goes on forever there are only short ones. -/
theorem short_of_acc {W : World} : ∀ {path : Str}, Acc (fun q p => W.Includes p q) path →
    (∀ p n, W.IncludedBy path p → W.Wrote p n → n.tame = true ∧ ∀ a ∈ n.includes, ∃ t, a.literal = some t) →
    ∃ m, W.Short (m + 1) path := by
  intro path ha
  induction ha with
  | intro path _ ih =>
    intro h
    have turn : ∀ {q r}, W.Includes path q → W.IncludedBy q r → W.IncludedBy path r := by
      intro q r hq hr
      induction hr with
      | self => exact .step .self hq
      | step _ h ih' => exact .step ih' h
    by_cases hw : ∃ n, W.Wrote path n
    · obtain ⟨n, hn⟩ := hw
      have all : ∀ l : List Node, (∀ a ∈ l, a ∈ n.includes) →
          ∃ m, ∀ a ∈ l, ∃ t, a.literal = some t ∧ W.Short m (joinPath (dirPath path) t) := by
        intro l
        induction l with
        | nil => exact fun _ => ⟨0, fun _ h => by cases h⟩
        | cons a l ihl =>
          intro hl
          obtain ⟨m, hm⟩ := ihl fun b hb => hl b (List.mem_cons_of_mem _ hb)
          have hai := hl a List.mem_cons_self
          obtain ⟨t, ht⟩ := (h path n .self hn).2 a hai
          have hq : W.Includes path (joinPath (dirPath path) t) := ⟨n, hn, a, hai, t, ht, rfl⟩
          obtain ⟨m', hm'⟩ := ih _ hq fun p n hp => h p n (turn hq hp)
          refine ⟨m + (m' + 1), fun b hb => ?_⟩
          rcases List.mem_cons.1 hb with rfl | hb
          · exact ⟨t, ht, hm'.mono (by omega)⟩
          · obtain ⟨u, h1, h2⟩ := hm b hb
            exact ⟨u, h1, h2.mono (by omega)⟩
      obtain ⟨m, hm⟩ := all n.includes fun _ h => h
      refine ⟨m, fun n' hn' => ?_⟩
      rw [Wrote.unique hn' hn]
      exact ⟨(h path n .self hn).1, hm⟩
    · exact ⟨0, fun n hn => absurd ⟨n, hn⟩ hw⟩

/-- Without an endless chain every chain ends. -/
theorem acc_of_no_chain {W : World} {path : Str}
    (h : ¬ ∃ f : Nat → Str, f 0 = path ∧ ∀ k, W.Includes (f k) (f (k + 1))) : Acc (fun q p => W.Includes p q) path := by
  refine Classical.byContradiction fun hn => h ?_
  have next : ∀ x : { p : Str // ¬ Acc (fun q p => W.Includes p q) p },
      ∃ y : { p : Str // ¬ Acc (fun q p => W.Includes p q) p }, W.Includes x.1 y.1 := by
    intro ⟨p, hp⟩
    refine Classical.byContradiction fun hno => hp ⟨_, fun q hq => ?_⟩
    exact Classical.byContradiction fun hq' => hno ⟨⟨q, hq'⟩, hq⟩
  let go : Nat → { p : Str // ¬ Acc (fun q p => W.Includes p q) p } :=
    fun k => Nat.rec ⟨path, hn⟩ (fun _ x => Classical.choose (next x)) k
  exact ⟨fun k => (go k).1, rfl, fun k => Classical.choose_spec (next (go k))⟩

/-- **C36** (partial): if the files a document leads to are tame and name literally what they include, then its loading
comes to an end, always the same and not a crash, unless there is an endless chain of includes; and if there is one, it does
not load. So the include cycles are exactly what can keep such a document from loading or from being refused. -/
theorem C36_exact_partial {W : World} (hW : W.baseOnly) {path : Str} {plugins : List Nat} {s : St} (hr : Reach W s)
    (h0 : plugins.head? = some 0) (hp : path ≠ [])
    (ht : ∀ p n, W.IncludedBy path p → W.Wrote p n → n.tame = true ∧ ∀ a ∈ n.includes, ∃ t, a.literal = some t) :
    ((¬ ∃ f : Nat → Str, f 0 = path ∧ ∀ k, W.Includes (f k) (f (k + 1))) →
      ∃ r N, r.1 ≠ .more ∧ r.1 ≠ .panic ∧ ∀ n, N ≤ n → loadFile W n none path plugins s = r) ∧
    ((∃ f : Nat → Str, f 0 = path ∧ ∀ k, W.Includes (f k) (f (k + 1))) →
      ∀ n i s', loadFile W n none path plugins s ≠ (.ok i, s')) := by
  refine ⟨fun hc => ?_, fun hc n i s' h => (C36_no_cycle (fun p name f hf => ?_) hr h0 hp h).1 hc⟩
  · obtain ⟨m, hm⟩ := short_of_acc (acc_of_no_chain hc) ht
    exact short_ends hW hr none path plugins hm (.inl hp) (fun p h => by cases h) h0
  · rw [hW p name] at hf
    cases hf

/-- The sample files, which include one another, meet the conditions, and have no endless chain. -/
example : ∃ r N, r.1 ≠ .more ∧ r.1 ≠ .panic ∧ ∀ n, N ≤ n → loadFile (plainFiles tameFiles) n none q%"x.lit" [0] ⟨[], []⟩ = r := by
  have hr : (plainFiles tameFiles).acyclic tameRank := plainFiles_acyclic (by decide +kernel)
  refine (C36_exact_partial (plainFiles_baseOnly _) .start rfl (by decide) fun p n _ hn => ⟨tameFiles_tame p n hn, fun a ha => ?_⟩).1 ?_
  · obtain ⟨t, h, _⟩ := hr p n hn a ha
    exact ⟨t, h⟩
  · rintro ⟨f, _, hf⟩
    have down : ∀ k, tameRank (f (k + 1)) < tameRank (f k) := by
      intro k
      obtain ⟨n, hn, a, ha, t, ht, e⟩ := hf k
      obtain ⟨u, hu, hl⟩ := hr _ n hn a ha
      rw [ht] at hu
      cases hu
      rw [e]
      exact hl
    have below : ∀ k, tameRank (f k) + k ≤ tameRank (f 0) := by
      intro k
      induction k with
      | zero => exact Nat.le_refl _
      | succ k ih => have := down k; omega
    have := below (tameRank (f 0) + 1)
    omega

/-- **C61**: if a document loads, then every file it includes, directly or through others, is there and parses. -/
theorem C61_all_there {W : World} (hW : W.noNodes) {n : Nat} {path : Str} {plugins : List Nat} {s s' : St} {i : Nat}
    (hr : Reach W s) (h0 : plugins.head? = some 0) (hp : path ≠ []) (h : loadFile W n none path plugins s = (.ok i, s'))
    {q : Str} (hq : W.IncludedBy path q) : ∃ n, W.Wrote q n := by
  refine loaded_includes hW (P := fun p => ∀ r, W.IncludedBy p r → ∃ n, W.Wrote r n) ?_ hr h0 hp h q hq
  intro p n hw ih r hr'
  have turn : ∀ {r}, W.IncludedBy p r → r = p ∨ ∃ w, W.Includes p w ∧ W.IncludedBy w r := by
    intro r hr'
    induction hr' with
    | self => exact .inl rfl
    | @step q r _ hz ih' =>
      rcases ih' with rfl | ⟨w, h1, h2⟩
      · exact .inr ⟨r, hz, .self⟩
      · exact .inr ⟨w, h1, .step h2 hz⟩
  rcases turn hr' with rfl | ⟨w, ⟨n', hw', a, ha, t, ht, rfl⟩, h2⟩
  · exact ⟨n, hw⟩
  · rw [Wrote.unique hw' hw] at ha
    exact ih a ha t ht r h2

/-- The example document loads and includes another file, so both theorems say something about it. -/
example : ∃ i s', outlineLoad = (.ok i, s') ∧ outlineWorld.Includes q%"d/a.lit" q%"d/b.lit" ∧
    ¬ outlineWorld.IncludedBy q%"d/b.lit" q%"d/a.lit" ∧ ∃ n, outlineWorld.Wrote q%"d/b.lit" n := by
  obtain ⟨i, s', node, h1, h2, _⟩ := outline_follows
  have hi : outlineWorld.Includes q%"d/a.lit" q%"d/b.lit" := by
    have : (match parseFile q%"d/a.lit" ((outlineWorld.fs q%"d/a.lit").getD ⟨0, none⟩) with
      | .ok n => n.includes.any fun a => decide (a.literal = some q%"b.lit")
      | _ => false) = true := by decide +kernel
    obtain ⟨info, hf, hn⟩ := h2
    rw [hf, Option.getD_some, hn] at this
    obtain ⟨a, ha, hl⟩ := List.any_eq_true.1 this
    exact ⟨node, ⟨info, hf, hn⟩, a, ha, _, of_decide_eq_true hl, by decide⟩
  exact ⟨i, s', h1, hi, (C36_no_cycle outlineWorld_noNodes .start rfl (by decide) h1).2 _ _ .self hi,
    C61_all_there outlineWorld_noNodes .start rfl (by decide) h1 (.step .self hi)⟩

/-- Two files that include each other, one of them from within a section. -/
def mutualW : World where
  fs := fun p =>
    if p = q%"a.lit" then some ⟨1, some q%"\\title{A}\n\n\\section{\\include-section{d/b.lit}}\n"⟩
    else if p = q%"d/b.lit" then some ⟨1, some q%"\\title{B}\n\n\\include-section{../a.lit}\n"⟩
    else none
  registry := fun _ => none
  foreign := fun _ _ => none
  brokenOk := false

theorem mutual_includes {p name q : Str} (h : (match mutualW.fs p with
    | some info => (match parseFile p info with
      | .ok n => n.includes.any fun a => decide (a.literal = some name)
      | _ => false)
    | none => false) = true) (hq : q = joinPath (dirPath p) name) : mutualW.Includes p q := by
  split at h
  · rename_i info hf
    split at h
    · rename_i n hn
      obtain ⟨a, ha, hl⟩ := List.any_eq_true.1 h
      exact ⟨n, ⟨info, hf, hn⟩, a, ha, name, of_decide_eq_true hl, hq⟩
    · cases h
  · cases h

/-- They never load, for whatever fuel. -/
example (n : Nat) (i : Nat) (s' : St) : loadFile mutualW n none q%"a.lit" [0] ⟨[], []⟩ ≠ (.ok i, s') := by
  intro h
  have hab : mutualW.Includes q%"a.lit" q%"d/b.lit" := mutual_includes (name := q%"d/b.lit") (by decide +kernel) (by decide)
  have hba : mutualW.Includes q%"d/b.lit" q%"a.lit" := mutual_includes (name := q%"../a.lit") (by decide +kernel) (by decide)
  exact (C36_no_cycle (by intro p name f h; cases h) .start rfl (by decide) h).2 _ _ .self hab (.step .self hba)

end Booklit.Props
