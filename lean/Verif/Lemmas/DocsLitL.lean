import Verif.Model.DocsLit
import Verif.Spec.DocsLit
import Verif.Props.Chroma

/-!
Matches of patterns in a text, for C103.
-/

namespace Booklit

open Props

/-- What a pattern must be for its matches to be those of `hit`. -/
structure PatFits (len : Str → Nat) (hit : Str → Str → Prop) : Prop where
  none : ∀ s, len s = 0 → ∀ m r, s = m ++ r → ¬ hit m r
  some : ∀ s k, len s = k + 1 → ∃ m r, s = m ++ r ∧ m.length = k + 1 ∧ hit m r

variable {len : Str → Nat} {hit : Str → Str → Prop}

theorem findAll_ge : ∀ (s : Str) (n k : Nat), ∀ x ∈ findAll len n k s, n ≤ x.1
  | [], _, _, x, h => by rw [findAll] at h; cases h
  | _ :: s, n, k + 1, x, h => by
    rw [findAll] at h
    have := findAll_ge s (n + 1) k x h
    omega
  | c :: s, n, 0, x, h => by
    rw [findAll] at h
    split at h
    · have := findAll_ge s (n + 1) 0 x h
      omega
    · rcases List.mem_cons.1 h with rfl | h
      · exact Nat.le_refl _
      · have := findAll_ge s (n + 1) _ x h
        omega

theorem findAll_skip : ∀ (u r : Str) (n : Nat), findAll len n u.length (u ++ r) = findAll len (n + u.length) 0 r
  | [], r, n => rfl
  | c :: u, r, n => by
    rw [List.length_cons, List.cons_append, findAll, findAll_skip u r (n + 1)]
    congr 1
    omega

theorem PatFits.le (h : PatFits len hit) (s : Str) : len s ≤ s.length := by
  cases hk : len s with
  | zero => exact Nat.zero_le _
  | succ k =>
    obtain ⟨m, r, e, hm, _⟩ := h.some s k hk
    rw [e, List.length_append]
    omega

theorem PatFits.matches_ (h : PatFits len hit) (a : Str) : ∀ (s : Str) (n k : Nat), a.length = n + s.length → k ≤ s.length →
    Matches a n (findAll len n k s) ∧ Matches a (n + k) (findAll len n k s)
  | [], n, k, _, hk => by rw [findAll.eq_def]; exact ⟨trivial, trivial⟩
  | c :: s, n, k + 1, hl, hk => by
    rw [findAll]
    simp only [List.length_cons] at hl hk
    obtain ⟨_, h2⟩ := h.matches_ a s (n + 1) k (by omega) (by omega)
    rw [show n + (k + 1) = n + 1 + k by omega]
    refine ⟨?_, h2⟩
    revert h2
    cases findAll len (n + 1) k s with
    | nil => exact fun _ => trivial
    | cons x xs => obtain ⟨p, q⟩ := x; exact fun ⟨h1, h2, h3, h4⟩ => ⟨by omega, h2, h3, h4⟩
  | c :: s, n, 0, hl, hk => by
    simp only [List.length_cons] at hl
    have key : Matches a n (findAll len n 0 (c :: s)) := by
      rw [findAll]
      split
      · obtain ⟨h1, _⟩ := h.matches_ a s (n + 1) 0 (by omega) (Nat.zero_le _)
        revert h1
        cases findAll len (n + 1) 0 s with
        | nil => exact fun _ => trivial
        | cons x xs => obtain ⟨p, q⟩ := x; exact fun ⟨h1, h2, h3, h4⟩ => ⟨by omega, h2, h3, h4⟩
      · rename_i k hk'
        have hle := h.le (c :: s)
        simp only [List.length_cons] at hle
        obtain ⟨_, h2⟩ := h.matches_ a s (n + 1) k (by omega) (by omega)
        refine ⟨Nat.le_refl _, by omega, by omega, ?_⟩
        rw [show n + (k + 1) = n + 1 + k by omega]
        exact h2
    exact ⟨key, key⟩

/-- A kept piece has no match. -/
theorem findAll_keep : ∀ (u r : Str) (n : Nat), (∀ x ∈ findAll len n 0 (u ++ r), n + u.length ≤ x.1) →
    (∀ v w, u = v ++ w → w ≠ [] → len (w ++ r) = 0) ∧ findAll len n 0 (u ++ r) = findAll len (n + u.length) 0 r
  | [], r, n, _ => ⟨fun v w e hw => absurd (List.append_eq_nil_iff.1 e.symm).2 hw, rfl⟩
  | c :: u, r, n, h => by
    have h0 : len (c :: (u ++ r)) = 0 := by
      cases hk : len (c :: (u ++ r)) with
      | zero => rfl
      | succ k =>
        have : (n, n + (k + 1)) ∈ findAll len n 0 (c :: u ++ r) := by
          rw [List.cons_append, findAll, hk]
          exact List.mem_cons_self
        have := h _ this
        simp only [List.length_cons] at this
        omega
    have e : findAll len n 0 (c :: u ++ r) = findAll len (n + 1) 0 (u ++ r) := by
      rw [List.cons_append, findAll, h0]
    rw [e] at h
    obtain ⟨h1, h2⟩ := findAll_keep u r (n + 1) fun x hx => by
      have := h x hx
      simp only [List.length_cons] at this
      omega
    refine ⟨fun v w e' hw => ?_, ?_⟩
    · cases v with
      | nil =>
        rw [List.nil_append] at e'
        subst e'
        exact h0
      | cons d v =>
        rw [List.cons_append, List.cons.injEq] at e'
        exact h1 v w e'.2 hw
    · rw [e, h2, List.length_cons]
      congr 1
      omega

/-- Pieces with these hits are cut as the pattern says. -/
theorem PatFits.cut (hf : PatFits len hit) : ∀ (ps : List Piece) (n : Nat), hitsAt n ps = findAll len n 0 (piecesText ps) → Tidy ps →
    Cut hit (piecesText ps) ps
  | [], _, _, _ => .done
  | ⟨true, m⟩ :: ps, n, h, ht => by
    have ht' : Tidy ps := by
      cases ps with
      | nil => trivial
      | cons q qs => exact ht.2
    rw [hitsAt, piecesText] at h
    simp only [if_true, List.cons_append, List.nil_append] at h
    rw [piecesText]
    cases hs : m ++ piecesText ps with
    | nil => rw [hs, findAll] at h; cases h
    | cons c s =>
      rw [hs, findAll] at h
      split at h
      · have := findAll_ge s (n + 1) 0 (n, n + m.length) (by rw [← h]; exact List.mem_cons_self)
        simp only at this
        omega
      · rename_i k hk
        rw [List.cons.injEq, Prod.mk.injEq] at h
        obtain ⟨⟨_, hl⟩, hrest⟩ := h
        obtain ⟨m', r', e, hlen, hh⟩ := hf.some _ k hk
        have hm : m = m' ∧ piecesText ps = r' := by
          rw [← hs] at e
          exact List.append_inj e (by omega)
        obtain ⟨rfl, rfl⟩ := hm
        rw [← hs]
        refine .hit hh (hf.cut ps (n + m.length) ?_ ht')
        rw [hrest]
        cases m with
        | nil => simp at hlen
        | cons d m =>
          rw [List.cons_append, List.cons.injEq] at hs
          obtain ⟨_, rfl⟩ := hs
          have : k = m.length := by simpa using hlen.symm
          subst this
          rw [findAll_skip]
          congr 1
          simp only [List.length_cons]
          omega
  | ⟨false, u⟩ :: ps, n, h, ht => by
    have hu : u ≠ [] := by
      cases ps with
      | nil => exact ht rfl
      | cons q qs => exact (ht.1 rfl).1
    have ht' : Tidy ps := by
      cases ps with
      | nil => trivial
      | cons q qs => exact ht.2
    rw [hitsAt, piecesText] at h
    simp only [Bool.false_eq_true, if_false, List.nil_append] at h
    have hge : ∀ x ∈ findAll len n 0 (u ++ piecesText ps), n + u.length ≤ x.1 := by
      rw [← h]
      intro x hx
      have : ∀ (qs : List Piece) (n : Nat), ∀ x ∈ hitsAt n qs, n ≤ x.1 := by
        intro qs
        induction qs with
        | nil => intro n x hx; cases hx
        | cons q qs ih =>
          intro n x hx
          rw [hitsAt] at hx
          rcases List.mem_append.1 hx with hx | hx
          · split at hx
            · rw [List.mem_singleton] at hx
              rw [hx]
              exact Nat.le_refl _
            · cases hx
          · have := ih _ x hx
            omega
      exact this ps _ x hx
    obtain ⟨h1, h2⟩ := findAll_keep u (piecesText ps) n hge
    rw [piecesText]
    refine .keep hu (fun v w m x e hw e' => hf.none _ (h1 v w e hw) m x e') (hf.cut ps (n + u.length) (by rw [h, h2]) ht')

/-- Transforming a text with a pattern. -/
theorem PatFits.pieces (hf : PatFits len hit) (make : Str → Content) (s : Str) :
    ∃ ps : List Piece, Cut hit s ps ∧ Tidy ps ∧
      Transformer.transformAll ⟨findAll len 0 0, make⟩ s = ps.map fun p => if p.hit then make p.text else .str p.text := by
  obtain ⟨ps, h1, h2, h3, h4⟩ := C51_pieces ⟨findAll len 0 0, make⟩ s (hf.matches_ s s 0 0 (by simp) (Nat.zero_le _)).1
  refine ⟨ps, ?_, h3, h4⟩
  have := hf.cut ps 0 (by rw [h1]; exact h2) h3
  rwa [h1] at this

theorem takeWhile_cut (p : Char → Bool) : ∀ (a r : Str), (∀ c ∈ a, p c = true) → (∀ c ∈ r.head?, p c = false) →
    (a ++ r).takeWhile p = a
  | [], r, _, h => by
    cases r with
    | nil => rfl
    | cons c r => rw [List.nil_append, List.takeWhile_cons, h c rfl]; rfl
  | c :: a, r, ha, h => by
    rw [List.cons_append, List.takeWhile_cons, ha c List.mem_cons_self, if_pos rfl,
      takeWhile_cut p a r (fun d hd => ha d (List.mem_cons_of_mem _ hd)) h]

theorem takeWhile_rest (p : Char → Bool) : ∀ s : Str, ∃ r, s = s.takeWhile p ++ r ∧ (∀ c ∈ s.takeWhile p, p c = true) ∧
    ∀ c ∈ r.head?, p c = false
  | [] => ⟨[], rfl, by simp, by simp⟩
  | c :: s => by
    cases hc : p c with
    | true =>
      obtain ⟨r, h1, h2, h3⟩ := takeWhile_rest p s
      refine ⟨r, ?_, ?_, h3⟩
      · rw [List.takeWhile_cons, hc, if_pos rfl, List.cons_append, ← h1]
      · rw [List.takeWhile_cons, hc, if_pos rfl]
        intro d hd
        rcases List.mem_cons.1 hd with rfl | hd
        · exact hc
        · exact h2 d hd
    | false =>
      refine ⟨c :: s, ?_, ?_, ?_⟩
      · rw [List.takeWhile_cons, hc]; rfl
      · rw [List.takeWhile_cons, hc]; intro d hd; cases hd
      · intro d hd; cases hd; exact hc

theorem call_fits : PatFits callLen CallHit where
  none := by
    rintro s h m r e ⟨name, rfl, hne, ha, hr⟩
    subst e
    rw [List.cons_append, callLen] at h
    have : (name ++ r).takeWhile isFnChar = name := takeWhile_cut _ _ _ ha hr
    change (if '\\' = '\\' ∧ (name ++ r).takeWhile isFnChar ≠ [] then ((name ++ r).takeWhile isFnChar).length + 1 else 0) = 0 at h
    rw [this, if_pos ⟨rfl, hne⟩] at h
    omega
  some := by
    intro s k h
    cases s with
    | nil => rw [callLen] at h; omega
    | cons c s =>
      rw [callLen] at h
      change (if c = '\\' ∧ s.takeWhile isFnChar ≠ [] then (s.takeWhile isFnChar).length + 1 else 0) = k + 1 at h
      split at h
      · rename_i hc
        obtain ⟨rfl, hne⟩ := hc
        obtain ⟨r, h1, h2, h3⟩ := takeWhile_rest isFnChar s
        exact ⟨'\\' :: s.takeWhile isFnChar, r, by rw [List.cons_append, ← h1], by simpa using h, _, rfl, hne, h2, h3⟩
      · omega

theorem arg_fits : PatFits argLen ArgHit where
  none := by
    rintro s h m r e ⟨arg, rfl, hne, ha⟩
    subst e
    rw [List.append_assoc, List.cons_append, argLen] at h
    have : (arg ++ (['}'] ++ r)).takeWhile (fun x => decide (x ≠ '}')) = arg :=
      takeWhile_cut _ _ _ (fun c hc => decide_eq_true fun e => ha (e ▸ hc)) (fun c hc => by cases hc; rfl)
    rw [this] at h
    rw [if_pos ⟨rfl, hne, by simp⟩] at h
    omega
  some := by
    intro s k h
    cases s with
    | nil => rw [argLen] at h; omega
    | cons c s =>
      rw [argLen] at h
      split at h
      · rename_i hc
        obtain ⟨rfl, hne, hl⟩ := hc
        obtain ⟨r, h1, h2, h3⟩ := takeWhile_rest (fun x => decide (x ≠ '}')) s
        cases r with
        | nil =>
          rw [List.append_nil] at h1
          rw [← h1] at hl
          omega
        | cons d r =>
          have hd : d = '}' := by simpa using h3 d rfl
          subst hd
          refine ⟨'{' :: s.takeWhile (fun x => decide (x ≠ '}')) ++ ['}'], r, ?_, by simp only [List.length_append, List.length_cons, List.length_nil]; omega, _, rfl, hne, ?_⟩
          · rw [List.append_assoc, List.cons_append]
            congr 1
          · intro hm
            have := h2 _ hm
            simp at this
      · omega

end Booklit
