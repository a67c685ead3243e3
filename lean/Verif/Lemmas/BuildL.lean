import Verif.Model.Build
import Verif.Lemmas.OutputL
import Verif.Lemmas.RendersL

/-!
Writing the pages of a book to the disk.
-/

namespace Booklit

variable {h : Heap} {O : Outside} {E : Engine} {dest : Str} {k : Nat}

/-- Write these pages, one after the other, until something fails. -/
def Heap.writeAll (h : Heap) (O : Outside) (E : Engine) (dest : Str) (k : Nat) : List Nat → Disk → Res Unit × Disk
  | [], d => (.ok (), d)
  | p :: ps, d => andNext (h.writeSingle O E dest k p d) fun d => h.writeAll O E dest k ps d

theorem andNext_assoc (r : Res Unit × Disk) (f g : Disk → Res Unit × Disk) :
    andNext (andNext r f) g = andNext r fun d => andNext (f d) g := by
  obtain ⟨r, d⟩ := r
  cases r <;> rfl

theorem andNext_ok (r : Res Unit × Disk) : andNext r (fun d => (.ok (), d)) = r := by
  obtain ⟨r, d⟩ := r
  cases r <;> rfl

theorem writeAll_append (ps qs : List Nat) (d : Disk) :
    h.writeAll O E dest k (ps ++ qs) d = andNext (h.writeAll O E dest k ps d) fun d => h.writeAll O E dest k qs d := by
  induction ps generalizing d with
  | nil => rfl
  | cons p ps ih =>
    rw [List.cons_append, Heap.writeAll, Heap.writeAll, andNext_assoc]
    congr 1
    funext d
    exact ih d

theorem write_all : ∀ n : Nat,
    (∀ i ps, h.written n i = some ps → ∀ d, h.writeSection O E dest k n i d = h.writeAll O E dest k ps d) ∧
    (∀ cs ps, h.writtenAll n cs = some ps → ∀ d, h.writeChildren O E dest k n cs d = h.writeAll O E dest k ps d) := by
  intro n
  induction n with
  | zero =>
    refine ⟨fun i ps e => (by rw [Heap.written] at e; cases e), ?_⟩
    intro cs ps e d
    cases cs with
    | nil => rw [Heap.writtenAll] at e; cases e; rw [Heap.writeChildren]; rfl
    | cons c cs => simp [Heap.writtenAll] at e
  | succ n ih =>
    constructor
    · intro i ps e d
      rw [Heap.written] at e
      cases hb : h.writtenAll n (h.get i).children with
      | none => rw [hb] at e; cases e
      | some below =>
        rw [hb] at e
        cases e
        rw [Heap.writeSection, writeAll_append]
        have hc := ih.2 _ _ hb
        simp only [hc]
        split
        · simp only [Heap.writeAll, andNext_ok]
        · rfl
    · intro cs ps e d
      cases cs with
      | nil => rw [Heap.writtenAll] at e; cases e; rw [Heap.writeChildren]; rfl
      | cons c cs =>
        rw [Heap.writtenAll] at e
        cases h1 : h.written n c with
        | none => rw [h1] at e; cases e
        | some p1 =>
          cases h2 : h.writtenAll n cs with
          | none => rw [h1, h2] at e; cases e
          | some p2 =>
            rw [h1, h2] at e
            cases e
            rw [Heap.writeChildren, writeAll_append, ih.1 _ _ h1]
            congr 1
            funext d
            exact ih.2 _ _ h2 d

/-! ### Only the files of pages -/

theorem save_other {path : Str} {x : Res Str} {d : Disk} {f : Str} (hf : f ≠ path) : (O.save path x d).2 f = d f := by
  unfold Outside.save
  split
  · rfl
  · split
    · split <;> simp [Disk.put, hf]
    · simp [Disk.put, hf]
    · simp [Disk.put, hf]
    · simp [Disk.put, hf]

theorem andNext_disk {r : Res Unit × Disk} {g : Disk → Res Unit × Disk} {d : Disk} {f : Str} (h1 : r.2 f = d f)
    (h2 : ∀ d', d' f = d f → (g d').2 f = d f) : (andNext r g).2 f = d f := by
  obtain ⟨r, d1⟩ := r
  cases r with
  | ok _ => exact h2 d1 h1
  | _ => exact h1

theorem write_other {f : Str} : ∀ n : Nat,
    (∀ N i ps, h.written N i = some ps → (∀ j ∈ ps, f ≠ h.filePathOf dest E.ext j) → ∀ d,
      (h.writeSection O E dest k n i d).2 f = d f) ∧
    (∀ N cs ps, h.writtenAll N cs = some ps → (∀ j ∈ ps, f ≠ h.filePathOf dest E.ext j) → ∀ d,
      (h.writeChildren O E dest k n cs d).2 f = d f) := by
  intro n
  induction n with
  | zero =>
    refine ⟨fun _ _ _ _ _ _ => rfl, fun N cs ps _ _ d => ?_⟩
    cases cs <;> rfl
  | succ n ih =>
    constructor
    · intro N i ps e hf d
      cases N with
      | zero => rw [Heap.written] at e; cases e
      | succ N =>
        rw [Heap.written] at e
        cases hb : h.writtenAll N (h.get i).children with
        | none => rw [hb] at e; cases e
        | some below =>
          rw [hb] at e
          cases e
          rw [Heap.writeSection]
          refine andNext_disk ?_ fun d' hd => ?_
          · split
            · rename_i hp
              exact save_other (hf i (by simp [hp]))
            · rfl
          · rw [ih.2 N _ _ hb (fun j hj => hf j (List.mem_append_right _ hj)), hd]
    · intro N cs ps e hf d
      cases cs with
      | nil => rfl
      | cons c cs =>
        cases N with
        | zero => simp [Heap.writtenAll] at e
        | succ N =>
          rw [Heap.writtenAll] at e
          cases h1 : h.written N c with
          | none => rw [h1] at e; cases e
          | some p1 =>
            cases h2 : h.writtenAll N cs with
            | none => rw [h1, h2] at e; cases e
            | some p2 =>
              rw [h1, h2] at e
              cases e
              rw [Heap.writeChildren]
              refine andNext_disk ?_ fun d' hd => ?_
              · exact ih.1 N c _ h1 (fun j hj => hf j (List.mem_append_left _ hj)) d
              · rw [ih.2 N cs _ h2 (fun j hj => hf j (List.mem_append_right _ hj)), hd]

theorem writeAll_other {f : Str} : ∀ (ps : List Nat) (d : Disk), (∀ j ∈ ps, f ≠ h.filePathOf dest E.ext j) →
    (h.writeAll O E dest k ps d).2 f = d f
  | [], d, _ => rfl
  | p :: ps, d, hf => by
    rw [Heap.writeAll]
    refine andNext_disk (save_other (hf p (by simp))) fun d' hd => ?_
    rw [writeAll_other ps d' fun j hj => hf j (by simp [hj]), hd]

/-! ### When nothing fails -/

theorem writeAll_ok {txt : Nat → Str} : ∀ (ps : List Nat) (d : Disk),
    (∀ p ∈ ps, O.opens (h.filePathOf dest E.ext p) = true ∧ O.writes (h.filePathOf dest E.ext p) = true) →
    (∀ p ∈ ps, E.render h k p = .ok (txt p)) →
    (h.writeAll O E dest k ps d).1 = .ok () ∧
    ∀ f, (h.writeAll O E dest k ps d).2 f =
      match lastWritten f (ps.map fun p => (h.filePathOf dest E.ext p, p)) with
      | some p => some (txt p)
      | none => d f
  | [], d, _, _ => ⟨rfl, fun _ => rfl⟩
  | p :: ps, d, ho, hr => by
    have h1 := ho p (by simp)
    have h2 := hr p (by simp)
    have hs : h.writeSingle O E dest k p d = (.ok (), d.put (h.filePathOf dest E.ext p) (txt p)) := by
      simp [Heap.writeSingle, Outside.save, h1.1, h1.2, h2]
    rw [Heap.writeAll, hs]
    simp only [andNext]
    obtain ⟨ih1, ih2⟩ := writeAll_ok ps (d.put (h.filePathOf dest E.ext p) (txt p)) (fun q hq => ho q (by simp [hq])) (fun q hq => hr q (by simp [hq]))
    refine ⟨ih1, fun f => ?_⟩
    rw [ih2 f, List.map_cons, lastWritten]
    cases lastWritten f (ps.map fun p => (h.filePathOf dest E.ext p, p)) with
    | some q => rfl
    | none =>
      simp only [Disk.put]
      by_cases e : f = h.filePathOf dest E.ext p
      · rw [if_pos e, if_pos e.symm]
      · rw [if_neg e, if_neg (Ne.symm e)]

/-! ### When something fails -/

theorem writeAll_fail : ∀ (ps : List Nat) (d : Disk), (h.writeAll O E dest k ps d).1 ≠ .ok () →
    ∃ pre p post, ps = pre ++ p :: post ∧ (h.writeAll O E dest k pre d).1 = .ok () ∧
      (h.writeAll O E dest k ps d) = h.writeSingle O E dest k p (h.writeAll O E dest k pre d).2
  | [], d, hf => absurd rfl hf
  | p :: ps, d, hf => by
    rw [Heap.writeAll] at hf ⊢
    cases hs : h.writeSingle O E dest k p d with
    | mk r d1 =>
      cases r with
      | ok u =>
        rw [hs] at hf
        obtain ⟨pre, q, post, e, h1, h2⟩ := writeAll_fail ps d1 hf
        refine ⟨p :: pre, q, post, by rw [e]; rfl, ?_, ?_⟩
        · rw [Heap.writeAll, hs]; exact h1
        · rw [Heap.writeAll, hs]; exact h2
      | err e => exact ⟨[], p, ps, rfl, rfl, by rw [Heap.writeAll, hs]; rfl⟩
      | panic => exact ⟨[], p, ps, rfl, rfl, by rw [Heap.writeAll, hs]; rfl⟩
      | more => exact ⟨[], p, ps, rfl, rfl, by rw [Heap.writeAll, hs]; rfl⟩

theorem save_done {path : Str} {x : Res Str} {d : Disk} (e : (O.save path x d).1 = .ok ()) :
    O.opens path = true ∧ O.writes path = true ∧ ∃ t, x = .ok t := by
  unfold Outside.save at e
  split at e
  · cases e
  · rename_i h1
    split at e
    · split at e
      · rename_i h2
        exact ⟨by simpa using h1, h2, _, rfl⟩
      · cases e
    all_goals cases e

theorem writeAll_done : ∀ (ps : List Nat) (d : Disk), (h.writeAll O E dest k ps d).1 = .ok () → ∀ p ∈ ps,
    (O.opens (h.filePathOf dest E.ext p) = true ∧ O.writes (h.filePathOf dest E.ext p) = true) ∧ ∃ t, E.render h k p = .ok t
  | [], _, _, _, hp => by cases hp
  | p :: ps, d, e, q, hq => by
    rw [Heap.writeAll] at e
    cases hs : h.writeSingle O E dest k p d with
    | mk r d1 =>
      rw [hs] at e
      cases r with
      | ok u =>
        rcases List.mem_cons.1 hq with rfl | hq
        · obtain ⟨h1, h2, h3⟩ := save_done (O := O) (d := d) (path := h.filePathOf dest E.ext q) (x := E.render h k q) (by
            rw [Heap.writeSingle] at hs; rw [hs])
          exact ⟨⟨h1, h2⟩, h3⟩
        · exact writeAll_done ps d1 e q hq
      | _ => cases e

/-! ### Which pages are written -/

open Tree in
theorem pages_kid {i : Nat} {ks : List Tree} {k : Tree} (hk : k ∈ ks) {p : Tree}
    (hp : p ∈ (if (h.get i).split then [k] else []) ++ k.pages h) : p ∈ (Tree.node i ks).pages h := by
  rw [Tree.pages]
  generalize (h.get i).split = sp at hp
  induction ks with
  | nil => cases hk
  | cons k' ks ih =>
    rw [Tree.pages.pagesL]
    rcases List.mem_cons.1 hk with rfl | hk
    · exact List.mem_append_left _ hp
    · exact List.mem_append_right _ (ih hk)

open Tree in
/-- The pages of a part of the book are pages of the book. -/
theorem sub_written {t : Tree} (b : Book h t) {s : Tree} (hs : t.Sub s) :
    ∀ p ∈ (if h.isPage s.root then [s.root] else []) ++ (s.pages h).map root,
      p ∈ (if h.isPage t.root then [t.root] else []) ++ (t.pages h).map root := by
  obtain ⟨ks, hs⟩ := hs
  induction hs with
  | here => exact fun _ h => h
  | @step ks q k s hq hk ih =>
    intro p hp
    have hmem := List.mem_of_getElem? hk
    refine ih p (List.mem_append_right _ ?_)
    have hpar : h.isPage s.root = (h.get q.root).split := by
      rw [Heap.isPage, b.parent q ⟨_, hq⟩ s hmem]
    rw [hpar] at hp
    obtain ⟨i, ks'⟩ := q
    have : p ∈ ((if (h.get i).split then [s] else []) ++ s.pages h).map root := by
      rw [show (Tree.node i ks').root = i from rfl] at hp
      rw [List.map_append]
      rcases List.mem_append.1 hp with hp | hp
      · refine List.mem_append_left _ ?_
        split at hp
        · rename_i e
          rw [if_pos e]
          simpa using hp
        · cases hp
      · exact List.mem_append_right _ hp
    obtain ⟨x, hx, rfl⟩ := List.mem_map.1 this
    exact List.mem_map.2 ⟨x, pages_kid hmem hx, rfl⟩

/-! ### The search index has a file of its own -/

theorem joinPath_slash {a b c : Str} (ha : a ≠ []) : joinPath a (b ++ '/' :: c) = joinPath (a ++ '/' :: b) c := by
  simp [joinPath, ha]

/-- The end of a path is that of its last part. -/
theorem joinPath_end {a : Str} (ha : a ≠ []) : ∀ (m : Nat) (b : Str), b.length ≤ m → ∀ z ext, b = z ++ '.' :: ext → ext.length = 4 →
    '/' ∉ ext → ∃ x, joinPath a b = x ++ ext := by
  intro m
  induction m generalizing a with
  | zero => intro b hb z ext e; subst e; simp at hb
  | succ m ih =>
    intro b hb z ext e hl hs
    by_cases hz : '/' ∈ z
    · obtain ⟨u, v, rfl⟩ := List.append_of_mem hz
      subst e
      rw [List.append_assoc, List.cons_append, joinPath_slash ha]
      exact ih (by simp) (v ++ '.' :: ext) (by simp at hb ⊢; omega) v ext rfl hl hs
    · have hp : Plain b := by
        subst e
        refine ⟨by simp [hz, hs], by simp, ?_, ?_⟩ <;>
        · intro e
          have := congrArg List.length e
          simp [hl] at this
          try omega
      rw [joinPath_plain ha hp]
      exact ⟨rootOf a ++ trail (partsOf a) ++ z ++ ['.'], by rw [e]; simp⟩

theorem html_not_index {dest : Str} (hd : dest ≠ []) (p : Nat) :
    h.filePathOf dest htmlExt p ≠ joinPath dest q%"search_index.json" := by
  intro e
  obtain ⟨x, hx⟩ := joinPath_end hd _ (h.fileName htmlExt p) (Nat.le_refl _) (h.get p).primaryTag.name q%"html"
    (by simp [Heap.fileName, htmlExt]) rfl (by decide)
  obtain ⟨y, hy⟩ := joinPath_end hd _ q%"search_index.json" (Nat.le_refl _) q%"search_index" q%"json" rfl rfl (by decide)
  rw [Heap.filePathOf, hx, hy] at e
  have := congrArg List.getLast? e
  simp at this

end Booklit
