import Verif.Lemmas.FuelL
import Verif.Lemmas.BuildL
import Verif.Model.Answer
import Verif.Spec.Build
import Verif.Lemmas.EvalRel

/-!
Builds with engines that make the same pages.
-/

namespace Booklit

/-- Two engines make the same pages of a book, the second perhaps with more fuel. -/
def Engine.Under (E E' : Engine) (h : Heap) : Prop :=
  ∀ k i, E.render h k i ≠ .more → ∃ K, ∀ m, K ≤ m → E'.render h m i = E.render h k i

/-- The section that is loaded is there. -/
theorem loadFile_lt {W : World} {n : Nat} {parent : Option Nat} {path : Str} {plugins : List Nat} {s s' : St} {i : Nat}
    (e : loadFile W n parent path plugins s = (.ok i, s')) : i < s'.heap.length := by
  obtain ⟨s1, h2, he, hc, rfl⟩ := loadFile_ok e
  obtain ⟨rfl, g⟩ := keeps_file_ok (Grow.inv W) he
  have m := collect_more n _ _ _ hc
  show s.heap.length < h2.length
  rw [m.1]
  exact g.1.new.1

theorem findTag_up {h : Heap} {n m i : Nat} {name : Str} {gs : List Tag} (e : h.findTag n i name = some gs) (hm : n ≤ m) :
    h.findTag m i name = some gs := tagsUp_mono _ _ _ _ e _ hm

variable {h : Heap} {O : Outside} {E E' : Engine} {dest : Str}

theorem andNext_more {r : Res Unit × Disk} {f : Disk → Res Unit × Disk} (hn : (andNext r f).1 ≠ .more) : r.1 ≠ .more := by
  obtain ⟨r, d⟩ := r
  cases r with
  | more => exact hn
  | _ => simp

theorem andNext_congr {r : Res Unit × Disk} {f g : Disk → Res Unit × Disk}
    (hf : ∀ d, r = (.ok (), d) → g d = f d) : andNext r g = andNext r f := by
  obtain ⟨r, d⟩ := r
  cases r with
  | ok u => exact hf d rfl
  | _ => rfl

theorem writeSingle_same (he : E.ext = E'.ext) (hu : E.Under E' h) {k i : Nat} {d : Disk} (hn : (h.writeSingle O E dest k i d).1 ≠ .more) :
    ∃ K, ∀ m, K ≤ m → h.writeSingle O E' dest m i d = h.writeSingle O E dest k i d := by
  unfold Heap.writeSingle at hn ⊢
  rw [← he]
  by_cases ho : O.opens (h.filePathOf dest E.ext i) = false
  · exact ⟨0, fun m _ => by simp only [Outside.save, ho, if_true]⟩
  · by_cases hr : E.render h k i = .more
    · rw [hr, Outside.save, if_neg ho] at hn
      exact absurd rfl hn
    · obtain ⟨K, hK⟩ := hu k i hr
      exact ⟨K, fun m hm => by rw [hK m hm]⟩

theorem write_same (he : E.ext = E'.ext) (hu : E.Under E' h) {k : Nat} : ∀ n : Nat,
    (∀ i d, (h.writeSection O E dest k n i d).1 ≠ .more →
      ∃ K, ∀ m n', K ≤ m → n ≤ n' → h.writeSection O E' dest m n' i d = h.writeSection O E dest k n i d) ∧
    (∀ cs d, (h.writeChildren O E dest k n cs d).1 ≠ .more →
      ∃ K, ∀ m n', K ≤ m → n ≤ n' → h.writeChildren O E' dest m n' cs d = h.writeChildren O E dest k n cs d) := by
  intro n
  induction n with
  | zero =>
    refine ⟨fun i d hn => absurd rfl hn, fun cs d hn => ?_⟩
    cases cs with
    | nil => exact ⟨0, fun m n' _ _ => by cases n' <;> rfl⟩
    | cons c cs => exact absurd rfl hn
  | succ n ih =>
    refine ⟨fun i d hn => ?_, fun cs d hn => ?_⟩
    · rw [Heap.writeSection] at hn ⊢
      have h1 : ∃ K, ∀ m, K ≤ m → (if h.isPage i then h.writeSingle O E' dest m i d else (.ok (), d)) =
          if h.isPage i then h.writeSingle O E dest k i d else (.ok (), d) := by
        have := andNext_more hn
        split
        · rename_i hp
          rw [if_pos hp] at this
          exact writeSingle_same he hu this
        · exact ⟨0, fun _ _ => rfl⟩
      obtain ⟨K1, hK1⟩ := h1
      cases hr : (if h.isPage i then h.writeSingle O E dest k i d else (.ok (), d)) with
      | mk r d' =>
        rw [hr] at hn
        cases r with
        | ok u =>
          obtain ⟨K2, hK2⟩ := ih.2 (h.get i).children d' hn
          refine ⟨max K1 K2, fun m n' hm hn' => ?_⟩
          obtain ⟨n', rfl⟩ : ∃ x, n' = x + 1 := ⟨n' - 1, by omega⟩
          rw [Heap.writeSection, hK1 m (by omega), hr]
          exact hK2 m n' (by omega) (by omega)
        | _ =>
          refine ⟨K1, fun m n' hm hn' => ?_⟩
          obtain ⟨n', rfl⟩ : ∃ x, n' = x + 1 := ⟨n' - 1, by omega⟩
          rw [Heap.writeSection, hK1 m (by omega), hr]
          rfl
    · cases cs with
      | nil => exact ⟨0, fun m n' _ _ => by cases n' <;> rfl⟩
      | cons c cs =>
        rw [Heap.writeChildren] at hn ⊢
        obtain ⟨K1, hK1⟩ := ih.1 c d (andNext_more hn)
        cases hr : h.writeSection O E dest k n c d with
        | mk r d' =>
          rw [hr] at hn
          cases r with
          | ok u =>
            obtain ⟨K2, hK2⟩ := ih.2 cs d' hn
            refine ⟨max K1 K2, fun m n' hm hn' => ?_⟩
            obtain ⟨n', rfl⟩ : ∃ x, n' = x + 1 := ⟨n' - 1, by omega⟩
            rw [Heap.writeChildren, hK1 m n' (by omega) (by omega), hr]
            exact hK2 m n' (by omega) (by omega)
          | _ =>
            refine ⟨K1, fun m n' hm hn' => ?_⟩
            obtain ⟨n', rfl⟩ : ∃ x, n' = x + 1 := ⟨n' - 1, by omega⟩
            rw [Heap.writeChildren, hK1 m n' (by omega) (by omega), hr]
            rfl

theorem searchDoc_le {b : Bool} {ext : Str} {n m : Nat} (hm : n ≤ m) (g : Tag) : (h.searchDoc b ext n g).Le (h.searchDoc b ext m g) := by
  unfold Heap.searchDoc
  split
  · exact .rfl
  · exact (heapText_le hm _).bind fun _ _ => (Res.Le.ofFuel fun a e => sectionURL_mono hm e).bind fun _ _ =>
      (heapText_le hm _).bind fun _ _ => (Res.Le.ofFuel fun a e => depth_mono hm e).bind fun _ _ => .rfl

theorem indexTags_le {b : Bool} {ext : Str} {n m : Nat} (hm : n ≤ m) : ∀ (gs : List Tag) ix,
    (h.indexTags b ext n ix gs).Le (h.indexTags b ext m ix gs) := by
  intro gs
  induction gs with
  | nil => intro ix; exact .rfl
  | cons g gs ih => intro ix; exact (searchDoc_le hm g).bind fun _ _ => ih _

theorem indexLoop_le {v w : SearchIndex → Nat → Res SearchIndex} (hv : ∀ ix i, (v ix i).Le (w ix i)) : ∀ (cs : List Nat) ix,
    (indexLoop v ix cs).Le (indexLoop w ix cs) := by
  intro cs
  induction cs with
  | nil => intro ix; exact .rfl
  | cons c cs ih => intro ix; exact (hv ix c).bind fun _ _ => ih _

theorem loadTags_le {b : Bool} {ext : Str} {k l : Nat} (hk : k ≤ l) : ∀ {n m : Nat}, n ≤ m → ∀ ix i,
    (h.loadTags b ext k n ix i).Le (h.loadTags b ext l m ix i) := by
  intro n
  induction n with
  | zero => intro m _ ix i; exact .inl rfl
  | succ n ih =>
    intro m hm ix i
    obtain ⟨m, rfl⟩ : ∃ x, m = x + 1 := ⟨m - 1, by omega⟩
    exact (indexTags_le hk _ _).bind fun _ _ => indexLoop_le (fun ix i => ih (by omega) ix i) _ _

theorem searchIndex_le {b : Bool} {ext : Str} {n m : Nat} (hm : n ≤ m) (i : Nat) : (h.searchIndex b ext n i).Le (h.searchIndex b ext m i) :=
  loadTags_le hm hm _ _

theorem writeIndex_same (he : E.ext = E'.ext) {bo short : Bool} {k m i : Nat} {d : Disk} (hm : k ≤ m)
    (hn : (h.writeIndex O E bo short dest k i d).1 ≠ .more) :
    h.writeIndex O E' bo short dest m i d = h.writeIndex O E bo short dest k i d := by
  unfold Heap.writeIndex at hn ⊢
  rw [← he]
  rcases searchIndex_le (h := h) (b := bo) (ext := E.ext) hm i with e | e
  · rw [e] at hn; exact absurd rfl hn
  · rw [← e]

theorem Job.Loads.reach {J : Job} {W : World} {n : Nat} {s : St} (h : J.Loads W n s) : Reach W s := by
  obtain ⟨k, i, s0, j, hl, hj⟩ := h
  have hr : Reach W s0 := by
    have := Reach.load n none J.input [0] (Reach.start (W := W)) (by simp) rfl
    rw [hl] at this
    exact this
  rw [Job.choose] at hj
  split at hj
  · split at hj
    · cases hj
    · cases hj
    · split at hj <;> cases hj <;> exact hr
  · split at hj
    · have := Reach.load n (some i) J.sectionPath [0] hr (fun p e => by cases e; exact loadFile_lt hl) rfl
      rw [hj] at this
      exact this
    · cases hj; exact hr

/-- A build with another engine that makes the same pages comes to the same end. -/
theorem build_same {J : Job} {W : World} {bo short : Bool} {n k : Nat} {d : Disk} (he : E.ext = E'.ext)
    (hu : ∀ s, J.Loads W n s → E.Under E' s.heap) (hn : (J.build W O E bo short n k d).res ≠ .more) :
    ∃ K, ∀ m, K ≤ m → J.build W O E' bo short n m d = J.build W O E bo short n k d := by
  unfold Job.build at hn ⊢
  cases hl : loadFile W n none J.input [0] ⟨[], []⟩ with
  | mk r s =>
    rw [hl] at hn
    cases r with
    | ok i =>
      dsimp only at hn ⊢
      have hc : (J.choose W n k i s).1 ≠ .more → ∀ m, k ≤ m → J.choose W n m i s = J.choose W n k i s := by
        intro hne m hm
        unfold Job.choose at hne ⊢
        split
        · rename_i ht
          rw [if_pos ht] at hne
          cases hf : s.heap.findTag k i J.sectionTag with
          | none => rw [hf] at hne; exact absurd rfl hne
          | some gs => rw [findTag_up hf hm]
        · rfl
      cases hj : J.choose W n k i s with
      | mk r' s' =>
        rw [hj] at hn hc
        cases r' with
        | ok j =>
          have hr' : J.Loads W n s' := ⟨k, i, s, j, hl, hj⟩
          have hc := hc (by simp)
          dsimp only at hn ⊢
          by_cases ho : J.out = []
          · simp only [if_pos ho] at hn ⊢
            have hre : E.render s'.heap k j ≠ .more := by
              intro e; rw [e] at hn; exact hn rfl
            obtain ⟨K, hK⟩ := hu s' hr' k j hre
            refine ⟨max K k, fun m hm => ?_⟩
            rw [hc m (by omega)]
            dsimp only
            rw [hK m (by omega)]
          · simp only [if_neg ho] at hn ⊢
            by_cases hk : O.mkdir J.out = false
            · refine ⟨k, fun m hm => ?_⟩
              rw [hc m hm]
              simp only [if_pos hk]
            · simp only [if_neg hk] at hn ⊢
              obtain ⟨K, hK⟩ := (write_same he (hu s' hr') k).1 j d (andNext_more hn)
              refine ⟨max K k, fun m hm => ?_⟩
              rw [hc m (by omega)]
              dsimp only
              rw [hK m m (by omega) (by omega)]
              have : andNext (s'.heap.writeSection O E J.out k k j d) (fun d =>
                    if J.saveIndex then s'.heap.writeIndex O E' bo short J.out m i d else (.ok (), d)) =
                  andNext (s'.heap.writeSection O E J.out k k j d) fun d =>
                    if J.saveIndex then s'.heap.writeIndex O E bo short J.out k i d else (.ok (), d) := by
                refine andNext_congr fun d' hd => ?_
                split
                · rename_i hi
                  rw [hd] at hn
                  simp only [andNext, hi, if_true] at hn
                  exact writeIndex_same he (by omega) hn
                · rfl
              rw [this]
        | more => exact absurd rfl hn
        | _ =>
          refine ⟨k, fun m hm => ?_⟩
          rw [hc (by simp) m hm]
    | more => exact absurd rfl hn
    | _ => exact ⟨0, fun m _ => rfl⟩

/-- So does a request. -/
theorem answer_same {W : World} {n k : Nat} {input path : Str} {s : St} (hs : Reach W s) (he : E.ext = E'.ext)
    (hu : ∀ s, Reach W s → E.Under E' s.heap) (hn : (answer W E n k input path s).1 ≠ .more) :
    ∃ K, ∀ m, K ≤ m → answer W E' n m input path s = answer W E n k input path s := by
  unfold answer at hn ⊢
  rw [← he]
  cases ht : requestTag E.ext path with
  | none => exact ⟨0, fun _ _ => rfl⟩
  | some t =>
    rw [ht] at hn
    dsimp only at hn ⊢
    cases hl : loadFile W n none input [0] s with
    | mk r s' =>
      rw [hl] at hn
      have hr : Reach W s' := by
        have := Reach.load n none input [0] hs (by simp) rfl
        rw [hl] at this
        exact this
      cases r with
      | ok i =>
        dsimp only at hn ⊢
        cases hq : s'.heap.requested E.ext k i path with
        | none => rw [hq] at hn; exact absurd rfl hn
        | some x =>
          have hm : ∀ m, k ≤ m → s'.heap.requested E.ext m i path = some x := by
            intro m hm
            unfold Heap.requested at hq ⊢
            rw [ht] at hq ⊢
            dsimp only at hq ⊢
            cases hf : s'.heap.findTag k i t with
            | none => rw [hf] at hq; cases hq
            | some gs => rw [hf] at hq; rw [findTag_up hf hm]; exact hq
          rw [hq] at hn
          cases x with
          | none => exact ⟨k, fun m h => by rw [hm m h]⟩
          | some j =>
            dsimp only at hn ⊢
            have hre : E.render s'.heap k j ≠ .more := by
              intro e; rw [e] at hn; exact hn rfl
            obtain ⟨K, hK⟩ := hu s' hr k j hre
            exact ⟨max K k, fun m h => by rw [hm m (by omega)]; dsimp only; rw [hK m (by omega)]⟩
      | more => exact absurd rfl hn
      | _ => exact ⟨0, fun m _ => rfl⟩

/-! What has been written when writing ends without a failure. -/

theorem writes_listed {h : Heap} {O : Outside} {E : Engine} {dest : Str} {k : Nat} : ∀ n : Nat,
    (∀ i d, (h.writeSection O E dest k n i d).1 = .ok () → ∃ ps, h.written n i = some ps) ∧
    (∀ cs d, (h.writeChildren O E dest k n cs d).1 = .ok () → ∃ ps, h.writtenAll n cs = some ps) := by
  have next : ∀ {r : Res Unit × Disk} {f : Disk → Res Unit × Disk}, (andNext r f).1 = .ok () →
      r.1 = .ok () ∧ (f r.2).1 = .ok () := by
    intro r f e
    obtain ⟨r, d⟩ := r
    cases r <;> first | exact ⟨rfl, e⟩ | cases e
  intro n
  induction n with
  | zero =>
    refine ⟨fun i d e => by (rw [Heap.writeSection] at e; cases e), fun cs d e => ?_⟩
    cases cs with
    | nil => exact ⟨[], by rw [Heap.writtenAll]⟩
    | cons c cs => simp [Heap.writeChildren] at e
  | succ n ih =>
    refine ⟨fun i d e => ?_, fun cs d e => ?_⟩
    · rw [Heap.writeSection] at e
      obtain ⟨ps, h1⟩ := ih.2 _ _ (next e).2
      exact ⟨_, by rw [Heap.written, h1]; rfl⟩
    · cases cs with
      | nil => exact ⟨[], by rw [Heap.writtenAll]⟩
      | cons c cs =>
        rw [Heap.writeChildren] at e
        obtain ⟨ps, h1⟩ := ih.1 _ _ (next e).1
        obtain ⟨qs, h2⟩ := ih.2 _ _ (next e).2
        exact ⟨_, by rw [Heap.writtenAll, h1, h2]; rfl⟩

theorem written_mono {h : Heap} : ∀ n : Nat,
    (∀ i ps, h.written n i = some ps → h.written (n + 1) i = some ps) ∧
    (∀ cs ps, h.writtenAll n cs = some ps → h.writtenAll (n + 1) cs = some ps) := by
  intro n
  induction n with
  | zero =>
    refine ⟨fun i ps e => by (rw [Heap.written] at e; cases e), fun cs ps e => ?_⟩
    cases cs with
    | nil => rw [Heap.writtenAll] at e ⊢; exact e
    | cons c cs => simp [Heap.writtenAll] at e
  | succ n ih =>
    refine ⟨fun i ps e => ?_, fun cs ps e => ?_⟩
    · rw [Heap.written] at e ⊢
      cases hb : h.writtenAll n (h.get i).children with
      | none => rw [hb] at e; cases e
      | some b => rw [ih.2 _ _ hb]; rw [hb] at e; exact e
    · cases cs with
      | nil => rw [Heap.writtenAll] at e ⊢; exact e
      | cons c cs =>
        rw [Heap.writtenAll] at e ⊢
        cases h1 : h.written n c with
        | none => rw [h1] at e; cases e
        | some p1 =>
          cases h2 : h.writtenAll n cs with
          | none => rw [h1, h2] at e; cases e
          | some p2 =>
            rw [ih.1 _ _ h1, ih.2 _ _ h2]
            rw [h1, h2] at e
            exact e

theorem written_ends_eq {h : Heap} {n i : Nat} {ps qs : List Nat} (h1 : h.written n i = some ps)
    (h2 : Ends (fun n => h.written n i) qs) : ps = qs := by
  obtain ⟨N, hN⟩ := h2
  have up : ∀ m, h.written (n + m) i = some ps := by
    intro m
    induction m with
    | zero => exact h1
    | succ m ih => exact (written_mono _).1 _ _ ih
  have := hN (n + N) (by omega)
  simp only [up N, Option.some.injEq] at this
  exact this

end Booklit
