import Verif.Spec.Manuscript

/-!
Checking the sections of a given manuscript: a list of all places.
-/

namespace Booklit.Ms

open Booklit

structure Spot where
  ks : List Nat
  n : Nat
  os : List Nat
  o : Part
  p : Part

def Spot.child (e : Spot) (k : Nat) (q : Part) : Spot :=
  if e.p.split then ⟨e.ks ++ [k], 1, e.ks ++ [k], q, q⟩ else ⟨e.ks ++ [k], e.n + 1, e.os, e.o, q⟩

mutual
/-- All places in `p`. -/
def spots (ks : List Nat) (n : Nat) (os : List Nat) (o : Option Part) : Part → List Spot
  | .mk title tags split hide body subs =>
    let p := Part.mk title tags split hide body subs
    ⟨ks, n, os, o.getD p, p⟩ :: spotsL ks 0 n os (o.getD p) split subs
def spotsL (ks : List Nat) (k n : Nat) (os : List Nat) (o : Part) (split : Bool) : List Part → List Spot
  | [] => []
  | q :: qs => (if split then spots (ks ++ [k]) 1 (ks ++ [k]) none q else spots (ks ++ [k]) (n + 1) os (some o) q) ++
      spotsL ks (k + 1) n os o split qs
end

/-- Being a place. -/
def Spot.Is (b : Part) (e : Spot) : Prop := Place b e.ks e.n e.os e.o e.p

mutual
theorem spots_is {b : Part} : ∀ (p : Part) {ks os : List Nat} {n : Nat} {o : Option Part}, Place b ks n os (o.getD p) p →
    ∀ e ∈ spots ks n os o p, e.Is b
  | .mk title tags split hide body subs, ks, os, n, o, hp, e, he => by
    rw [spots] at he
    rcases List.mem_cons.1 he with rfl | he
    · exact hp
    · exact spotsL_is (k := 0) subs hp (fun j q hq => by rw [Nat.zero_add]; exact hq) e he
theorem spotsL_is {b : Part} : ∀ (qs : List Part) {ks os : List Nat} {k n : Nat} {o : Part} {title : List Span} {tags : List Str} {split hide : Bool}
    {body : List Blk} {subs : List Part}, Place b ks n os o (.mk title tags split hide body subs) → (∀ j q, qs[j]? = some q → subs[k + j]? = some q) →
    ∀ e ∈ spotsL ks k n os o split qs, e.Is b
  | [], _, _, _, _, _, _, _, _, _, _, _, _, _, e, he => by cases he
  | q :: qs, ks, os, k, n, o, title, tags, split, hide, body, subs, hp, hk, e, he => by
    rw [spotsL] at he
    have h0 : subs[k]? = some q := hk 0 q rfl
    rcases List.mem_append.1 he with he | he
    · cases split with
      | true => exact spots_is q (.page hp rfl h0) e he
      | false => exact spots_is q (.same hp rfl h0) e he
    · exact spotsL_is qs hp (fun j r hr => by have := hk (j + 1) r hr; rwa [show k + 1 + j = k + (j + 1) by omega]) e he
end

theorem mem_spots_self (ks : List Nat) (n : Nat) (os : List Nat) (o : Option Part) (p : Part) : ⟨ks, n, os, o.getD p, p⟩ ∈ spots ks n os o p := by
  cases p
  rw [spots]
  exact List.mem_cons_self

theorem spotsL_child : ∀ (qs : List Part) {ks os : List Nat} {k n : Nat} {o : Part} {split : Bool} {j : Nat} {q : Part}, qs[j]? = some q →
    (if split then (⟨ks ++ [k + j], 1, ks ++ [k + j], q, q⟩ : Spot) else ⟨ks ++ [k + j], n + 1, os, o, q⟩) ∈ spotsL ks k n os o split qs
  | [], _, _, _, _, _, _, _, _, hq => by simp at hq
  | r :: qs, ks, os, k, n, o, split, 0, q, hq => by
    obtain rfl : r = q := by simpa using hq
    rw [spotsL]
    refine List.mem_append_left _ ?_
    cases split with
    | true => exact mem_spots_self (ks ++ [k]) 1 (ks ++ [k]) none r
    | false => exact mem_spots_self (ks ++ [k]) (n + 1) os (some o) r
  | r :: qs, ks, os, k, n, o, split, j + 1, q, hq => by
    rw [spotsL]
    have := spotsL_child qs (ks := ks) (os := os) (k := k + 1) (n := n) (o := o) (split := split) (j := j) (q := q) (by simpa using hq)
    rw [show k + 1 + j = k + (j + 1) by omega] at this
    exact List.mem_append_right _ this

mutual
theorem spots_child : ∀ (p : Part) {ks os : List Nat} {n : Nat} {o : Option Part} {e : Spot}, e ∈ spots ks n os o p →
    ∀ {k : Nat} {q : Part}, e.p.subs[k]? = some q → e.child k q ∈ spots ks n os o p
  | .mk title tags split hide body subs, ks, os, n, o, e, he, k, q, hq => by
    rw [spots] at he ⊢
    rcases List.mem_cons.1 he with rfl | he
    · refine List.mem_cons_of_mem _ ?_
      have := spotsL_child subs (ks := ks) (os := os) (k := 0) (n := n) (o := o.getD (.mk title tags split hide body subs)) (split := split) hq
      rw [Nat.zero_add] at this
      exact this
    · exact List.mem_cons_of_mem _ (spotsL_step subs he hq)
theorem spotsL_step : ∀ (ps : List Part) {ks os : List Nat} {m n : Nat} {o : Part} {split : Bool} {e : Spot}, e ∈ spotsL ks m n os o split ps →
    ∀ {k : Nat} {q : Part}, e.p.subs[k]? = some q → e.child k q ∈ spotsL ks m n os o split ps
  | [], _, _, _, _, _, _, _, he, _, _, _ => by cases he
  | p :: ps, ks, os, m, n, o, split, e, he, k, q, hq => by
    rw [spotsL] at he ⊢
    rcases List.mem_append.1 he with he | he
    · refine List.mem_append_left _ ?_
      cases split with
      | true => exact spots_child p he hq
      | false => exact spots_child p he hq
    · exact List.mem_append_right _ (spotsL_step ps he hq)
end

theorem mem_spots {b : Part} (e : Spot) : e ∈ spots [] 1 [] none b ↔ Place b e.ks e.n e.os e.o e.p := by
  constructor
  · exact spots_is (o := none) b .top e
  · obtain ⟨ks, n, os, o, p⟩ := e
    intro hp
    dsimp only at hp
    induction hp with
    | top => exact mem_spots_self [] 1 [] none b
    | page hp hs hk ih =>
      have := spots_child b ih hk
      rw [Spot.child] at this
      dsimp only at this
      rwa [if_pos hs] at this
    | same hp hs hk ih =>
      have := spots_child b ih hk
      rw [Spot.child] at this
      dsimp only at this
      rwa [if_neg (by rw [hs]; decide)] at this

/-! ### Checks -/

theorem one_of_length {α : Type} {P : α → Bool} {l : List α} (h : (l.filter P).length = 1) {x y : α} (hx : x ∈ l) (hy : y ∈ l) (px : P x = true)
    (py : P y = true) : x = y := by
  obtain ⟨z, hl⟩ := List.length_eq_one_iff.1 h
  have h1 : x ∈ l.filter P := List.mem_filter.2 ⟨hx, px⟩
  have h2 : y ∈ l.filter P := List.mem_filter.2 ⟨hy, py⟩
  rw [hl, List.mem_singleton] at h1 h2
  rw [h1, h2]

/-- References checked one by one. -/
def refsCheck (b : Part) : Bool :=
  (spots [] 1 [] none b).all fun e => (refsBlks e.p.body).all fun r => b.names.count r == 1

theorem RefsOk.of_check {b : Part} (h : refsCheck b = true) : RefsOk b := by
  intro ks n os o p hp name hn
  have h1 := List.all_eq_true.1 (List.all_eq_true.1 h ⟨ks, n, os, o, p⟩ ((mem_spots _).2 hp)) name hn
  exact eq_of_beq h1

/-- Pages checked one by one. -/
def pagesCheck (b : Part) : Bool :=
  let l := spots [] 1 [] none b
  l.all fun e => !decide (e.os = e.ks) || (!e.p.name.contains '/' && (l.filter fun e' => decide (e'.os = e'.ks) && e'.p.name == e.p.name).length == 1)

theorem PagesApart.of_check {b : Part} (h : pagesCheck b = true) : PagesApart b := by
  intro ks p hp
  have h1 := List.all_eq_true.1 h ⟨ks, 1, ks, p, p⟩ ((mem_spots _).2 hp)
  simp only [decide_true, Bool.not_true, Bool.false_or, Bool.and_eq_true, Bool.not_eq_true', beq_iff_eq] at h1
  refine ⟨fun hc => ?_, fun ks' p' hp' e => ?_⟩
  · rw [List.contains_iff_mem.2 hc] at h1
    cases h1.1
  · have := one_of_length h1.2 ((mem_spots ⟨ks', 1, ks', p', p'⟩).2 hp') ((mem_spots ⟨ks, 1, ks, p, p⟩).2 hp) (by simp [e]) (by simp)
    injection this

end Booklit.Ms
