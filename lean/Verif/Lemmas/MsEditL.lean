import Verif.Lemmas.MsLettersL

/-!
Manuscripts that differ in the text of one page only.
-/

namespace Booklit.Ms

open Booklit

variable {b b' : Part} {os : List Nat}

mutual
/-- The same but for texts on the page at `os`; the section is at `ks` and on the page at `pg`. What is different has the same targets. -/
inductive Off (os : List Nat) : List Nat → List Nat → Part → Part → Prop
  | mk {ks pg : List Nat} {title : List Span} {tags : List Str} {split hide : Bool} {body body' : List Blk} {subs subs' : List Part} :
      marksBlks body' = marksBlks body → (pg ≠ os → body' = body) → OffL os ks pg split 0 subs subs' →
      Off os ks pg (.mk title tags split hide body subs) (.mk title tags split hide body' subs')
inductive OffL (os : List Nat) : List Nat → List Nat → Bool → Nat → List Part → List Part → Prop
  | nil {ks pg : List Nat} {split : Bool} {k : Nat} : OffL os ks pg split k [] []
  | cons {ks pg : List Nat} {split : Bool} {k : Nat} {p p' : Part} {ps ps' : List Part} :
      Off os (ks ++ [k]) (if split then ks ++ [k] else pg) p p' → OffL os ks pg split (k + 1) ps ps' →
      OffL os ks pg split k (p :: ps) (p' :: ps')
end

mutual
theorem Off.refl : ∀ (p : Part) (ks pg : List Nat), Off os ks pg p p
  | .mk _ _ split _ _ subs, ks, pg => .mk rfl (fun _ => rfl) (OffL.refl subs ks pg split 0)
theorem OffL.refl : ∀ (ps : List Part) (ks pg : List Nat) (split : Bool) (k : Nat), OffL os ks pg split k ps ps
  | [], _, _, _, _ => .nil
  | p :: ps, ks, pg, split, k => .cons (Off.refl p _ _) (OffL.refl ps ks pg split (k + 1))
end

mutual
theorem Off.symm : ∀ {ks pg : List Nat} {p p' : Part}, Off os ks pg p p' → Off os ks pg p' p
  | _, _, _, _, .mk h1 h2 h3 => .mk h1.symm (fun e => (h2 e).symm) h3.symm
theorem OffL.symm : ∀ {ks pg : List Nat} {split : Bool} {k : Nat} {ps ps' : List Part}, OffL os ks pg split k ps ps' → OffL os ks pg split k ps' ps
  | _, _, _, _, _, _, .nil => .nil
  | _, _, _, _, _, _, .cons h1 h2 => .cons h1.symm h2.symm
end

theorem Off.same {ks pg : List Nat} {p p' : Part} (h : Off os ks pg p p') : p'.title = p.title ∧ p'.name = p.name ∧ p'.split = p.split := by
  cases h
  exact ⟨rfl, rfl, rfl⟩

theorem OffL.get {ks pg : List Nat} {split : Bool} : ∀ {k : Nat} {ps ps' : List Part}, OffL os ks pg split k ps ps' → ∀ {j : Nat} {q : Part}, ps[j]? = some q →
    ∃ q', ps'[j]? = some q' ∧ Off os (ks ++ [k + j]) (if split then ks ++ [k + j] else pg) q q'
  | _, _, _, .nil, _, _, e => by cases e
  | k, _, _, .cons h1 h2, 0, _, e => by cases e; exact ⟨_, rfl, h1⟩
  | k, _, _, .cons h1 h2, j + 1, _, e => by
    obtain ⟨q', h3, h4⟩ := h2.get (j := j) e
    exact ⟨q', h3, by rwa [show k + 1 + j = k + (j + 1) by omega] at h4⟩

theorem Off.subs {ks pg : List Nat} {p p' : Part} (h : Off os ks pg p p') : OffL os ks pg p.split 0 p.subs p'.subs := by
  cases h with
  | mk _ _ h3 => exact h3

/-- Places correspond. -/
theorem Off.place (h : Off os [] [] b b') {ks pg : List Nat} {n : Nat} {o p : Part} (hp : Place b ks n pg o p) :
    ∃ o' p', Place b' ks n pg o' p' ∧ Off os ks pg p p' ∧ Off os pg pg o o' := by
  induction hp with
  | top => exact ⟨b', b', .top, h, h⟩
  | @page ks n pg o p q k _ hs hk ih =>
    obtain ⟨o', p', h1, h2, h3⟩ := ih
    obtain ⟨q', h4, h5⟩ := h2.subs.get hk
    rw [hs, Nat.zero_add, if_pos rfl] at h5
    exact ⟨q', q', .page h1 (by rw [h2.same.2.2, hs]) h4, h5, h5⟩
  | @same ks n pg o p q k _ hs hk ih =>
    obtain ⟨o', p', h1, h2, h3⟩ := ih
    obtain ⟨q', h4, h5⟩ := h2.subs.get hk
    rw [hs, Nat.zero_add, if_neg (by simp)] at h5
    exact ⟨o', q', .same h1 (by rw [h2.same.2.2, hs]) h4, h5, h3⟩

mutual
theorem Off.toc : ∀ {ks pg : List Nat} {p p' : Part}, Off os ks pg p p' → ∀ page, p'.webToc ks page = p.webToc ks page
  | _, _, _, _, .mk (subs := subs) (subs' := subs') _ _ h3, page => by
    rw [Part.webToc, Part.webToc, h3.toc]
    cases h3 <;> rfl
theorem OffL.toc : ∀ {ks pg : List Nat} {split : Bool} {k : Nat} {ps ps' : List Part}, OffL os ks pg split k ps ps' → ∀ page,
    webEntries ks k split page ps' = webEntries ks k split page ps
  | _, _, _, _, _, _, .nil, _ => rfl
  | _, _, _, _, _, _, .cons h1 h2, page => by
    rw [webEntries, webEntries, h2.toc, h1.same.1, h1.same.2.1]
    simp only [h1.toc]
end

mutual
theorem Off.aims : ∀ {ks pg : List Nat} {p p' : Part}, Off os ks pg p p' → ∀ top page, p'.aims top page = p.aims top page
  | _, _, _, _, .mk h1 _ h3, top, page => by rw [Part.aims, Part.aims, h3.aims, h1]
theorem OffL.aims : ∀ {ks pg : List Nat} {split : Bool} {k : Nat} {ps ps' : List Part}, OffL os ks pg split k ps ps' → ∀ page,
    aimsParts split page ps' = aimsParts split page ps
  | _, _, _, _, _, _, .nil, _ => rfl
  | _, _, _, _, _, _, .cons h1 h2, page => by rw [aimsParts, aimsParts, h2.aims, h1.same.2.1, h1.aims]
end

theorem Off.refTo (h : Off os [] [] b b') (page name : Str) : refTo b' page name = refTo b page name := by
  rw [Ms.refTo, Ms.refTo, h.same.2.1, h.aims]

mutual
theorem Off.web : ∀ {ks pg : List Nat} {p p' : Part}, Off os ks pg p p' → pg ≠ os → ∀ r n page, p'.web r ks n page = p.web r ks n page
  | ks, pg, _, _, .mk (title := title) (tags := tags) (split := split) (hide := hide) (body := body) (subs := subs) (subs' := subs') h1 h2 h3, hne, r, n, page => by
    have e := h2 hne
    subst e
    have e := (Off.mk (title := title) (tags := tags) (hide := hide) h1 h2 h3).toc page
    rw [Part.web, Part.web, e]
    cases split with
    | true => rfl
    | false => rw [h3.web hne]
theorem OffL.web : ∀ {ks pg : List Nat} {k : Nat} {ps ps' : List Part}, OffL os ks pg false k ps ps' → pg ≠ os → ∀ r n page,
    webParts r ks k n page ps' = webParts r ks k n page ps
  | _, _, _, _, _, .nil, _, _, _, _ => rfl
  | _, _, _, _, _, .cons h1 h2, hne, r, n, page => by rw [webParts, webParts, h2.web hne, Off.web h1 hne]
end

/-- Sections on other pages are shown the same. -/
theorem Off.shown (h : Off os [] [] b b') {ks pg : List Nat} {p p' : Part} (hp : Off os ks pg p p') (hne : pg ≠ os) (page : Str) (n : Nat) :
    webShown b' page ks n p' = webShown b page ks n p := by
  have e : Ms.refTo b' page = Ms.refTo b page := by funext x; exact h.refTo _ x
  rw [webShown, webShown, hp.same.1, e, hp.web hne]

/-- The pages are the same but for the one at `os`. -/
theorem Off.page (h : Off os [] [] b b') {ks : List Nat} {p p' : Part} (hp : Off os ks ks p p') (hne : ks ≠ os) : webPage b' ks p' = webPage b ks p := by
  rw [webPage, webPage, h.shown hp hne, hp.same.2.1]

/-- The names are the same. -/
theorem Off.names (h : Off os [] [] b b') : b'.names = b.names := by
  rw [← Part.aims_names b' true [], ← Part.aims_names b true [], h.aims]

/-! ### Editing -/

theorem place_part {ks os : List Nat} {n : Nat} {o p : Part} (hp : Place b ks n os o p) : Place b os 1 os o o := by
  induction hp with
  | top => exact .top
  | page h1 h2 h3 _ => exact .page h1 h2 h3
  | same _ _ _ ih => exact ih

theorem place_above : ∀ {ks : List Nat} {k : Nat} {os : List Nat} {n : Nat} {o p : Part}, Place b (ks ++ [k]) n os o p → ∃ n' os' o' p', Place b ks n' os' o' p' := by
  intro ks k os n o p hp
  generalize e : ks ++ [k] = ks' at hp
  cases hp with
  | top => simp at e
  | page h1 _ _ =>
    obtain ⟨rfl, -⟩ := List.append_inj' e rfl
    exact ⟨_, _, _, _, h1⟩
  | same h1 _ _ =>
    obtain ⟨rfl, -⟩ := List.append_inj' e rfl
    exact ⟨_, _, _, _, h1⟩

theorem place_prefix : ∀ (r : List Nat) {ks : List Nat} {os : List Nat} {n : Nat} {o p : Part}, Place b (ks ++ r) n os o p → ∃ n' os' o' p', Place b ks n' os' o' p'
  | [], ks, os, n, o, p, hp => by rw [List.append_nil] at hp; exact ⟨_, _, _, _, hp⟩
  | k :: r, ks, os, n, o, p, hp => by
    rw [show ks ++ k :: r = (ks ++ [k]) ++ r by simp] at hp
    obtain ⟨_, _, _, _, h⟩ := place_prefix r hp
    exact place_above h

theorem OffL.modify {f : Part → Part} {ks pg : List Nat} {split : Bool} : ∀ {ps : List Part} {i k : Nat} {q : Part}, ps[k]? = some q →
    Off os (ks ++ [i + k]) (if split then ks ++ [i + k] else pg) q (f q) → OffL os ks pg split i ps (ps.modify k f)
  | [], _, _, _, e, _ => by cases e
  | p :: ps, i, 0, _, e, h => by
    cases e
    exact .cons h (OffL.refl ps ks pg split (i + 1))
  | p :: ps, i, k + 1, q, e, h => by
    rw [List.modify_succ_cons]
    exact .cons (Off.refl p _ _) (OffL.modify (i := i + 1) (k := k) e (by rwa [show i + 1 + k = i + (k + 1) by omega]))

theorem put_off {body : List Blk} {ks : List Nat} {n : Nat} {o p : Part} (hp : Place b ks n os o p) (hm : marksBlks body = marksBlks p.body) :
    ∀ (r : List Nat) {ks0 os0 : List Nat} {n0 : Nat} {o0 p0 : Part}, Place b ks0 n0 os0 o0 p0 → ks0 ++ r = ks → Off os ks0 os0 p0 (p0.put body r)
  | [], ks0, os0, n0, o0, p0, h0, e => by
    rw [List.append_nil] at e
    subst e
    obtain ⟨rfl, rfl, rfl, rfl⟩ := place_unique h0 hp
    cases p0
    rw [Part.put]
    exact .mk hm (fun e => absurd rfl e) (OffL.refl _ _ _ _ _)
  | k :: r, ks0, os0, n0, o0, p0, h0, e => by
    have e' : (ks0 ++ [k]) ++ r = ks := by rw [← e]; simp
    obtain ⟨n1, os1, o1, p1, h1⟩ := place_prefix (b := b) r (ks := ks0 ++ [k]) (by rw [e']; exact hp)
    have kid : p0.subs[k]? = some p1 ∧ os1 = if p0.split then ks0 ++ [k] else os0 := by
      generalize ek : ks0 ++ [k] = ks1 at h1
      cases h1 with
      | top => simp at ek
      | page h2 h3 h4 =>
        obtain ⟨rfl, e2⟩ := List.append_inj' ek rfl
        obtain rfl := (List.cons.inj e2).1
        obtain ⟨rfl, rfl, rfl, rfl⟩ := place_unique h0 h2
        exact ⟨h4, by rw [h3, if_pos rfl]⟩
      | same h2 h3 h4 =>
        obtain ⟨rfl, e2⟩ := List.append_inj' ek rfl
        obtain rfl := (List.cons.inj e2).1
        obtain ⟨rfl, rfl, rfl, rfl⟩ := place_unique h0 h2
        exact ⟨h4, by rw [h3, if_neg (by simp)]⟩
    have ih := put_off hp hm r h1 e'
    rw [kid.2] at ih
    cases p0 with
    | mk title tags split hide body' subs =>
      rw [Part.put]
      exact .mk rfl (fun _ => rfl) (OffL.modify kid.1 (by rw [Nat.zero_add]; exact ih))

theorem okParts_modify {f : Part → Part} (hf : ∀ p : Part, p.ok → (f p).ok) : ∀ (ps : List Part) (k : Nat), okParts ps → okParts (ps.modify k f)
  | [], k, _ => by simp [okParts]
  | p :: ps, 0, h => ⟨hf p h.1, h.2⟩
  | p :: ps, k + 1, h => by rw [List.modify_succ_cons]; exact ⟨h.1, okParts_modify hf ps k h.2⟩

theorem put_ok {body : List Blk} (hb : okBlks body) : ∀ (ks : List Nat) (p : Part), p.ok → (p.put body ks).ok
  | [], .mk _ _ _ _ _ _, h => ⟨h.1, h.2.1, hb, h.2.2.2⟩
  | k :: ks, .mk _ _ _ _ _ subs, h => ⟨h.1, h.2.1, h.2.2.1, okParts_modify (put_ok hb ks) subs k h.2.2.2⟩

end Booklit.Ms
