import Verif.Lemmas.OutlineL
import Verif.Lemmas.ErrL

/-!
Evaluation only makes contents, locations and errors that have an origin in the file.
-/

namespace Booklit

variable {W : World} {F : Content → Prop} {G : Err → Prop}

mutual
theorem Node.subs_trans : ∀ (t n m : Node), n ∈ t.subs → m ∈ n.subs → m ∈ t.subs
  | .str s, n, m, hn, hm => by
    rw [Node.subs, List.mem_singleton] at hn; rw [hn] at hm; exact hm
  | .invoke fn args loc, n, m, hn, hm => by
    rw [Node.subs] at hn
    rcases List.mem_cons.1 hn with h | h
    · rw [h] at hm; exact hm
    · rw [Node.subs]; exact List.mem_cons.2 (.inr (subsL_trans args n m h hm))
  | .seq ns, n, m, hn, hm => by
    rw [Node.subs] at hn
    rcases List.mem_cons.1 hn with h | h
    · rw [h] at hm; exact hm
    · rw [Node.subs]; exact List.mem_cons.2 (.inr (subsL_trans ns n m h hm))
  | .para ls, n, m, hn, hm => by
    rw [Node.subs] at hn
    rcases List.mem_cons.1 hn with h | h
    · rw [h] at hm; exact hm
    · rw [Node.subs]; exact List.mem_cons.2 (.inr (subsLL_trans ls n m h hm))
  | .pre ls, n, m, hn, hm => by
    rw [Node.subs] at hn
    rcases List.mem_cons.1 hn with h | h
    · rw [h] at hm; exact hm
    · rw [Node.subs]; exact List.mem_cons.2 (.inr (subsLL_trans ls n m h hm))
theorem subsL_trans : ∀ (ts : List Node) (n m : Node), n ∈ subsL ts → m ∈ n.subs → m ∈ subsL ts
  | [], n, m, hn, _ => by cases hn
  | t :: ts, n, m, hn, hm => by
    rw [subsL] at hn ⊢
    rcases List.mem_append.1 hn with h | h
    · exact List.mem_append.2 (.inl (Node.subs_trans t n m h hm))
    · exact List.mem_append.2 (.inr (subsL_trans ts n m h hm))
theorem subsLL_trans : ∀ (ls : List (List Node)) (n m : Node), n ∈ subsLL ls → m ∈ n.subs → m ∈ subsLL ls
  | [], n, m, hn, _ => by cases hn
  | t :: ts, n, m, hn, hm => by
    rw [subsLL] at hn ⊢
    rcases List.mem_append.1 hn with h | h
    · exact List.mem_append.2 (.inl (subsL_trans t n m h hm))
    · exact List.mem_append.2 (.inr (subsLL_trans ts n m h hm))
end

theorem Node.self_subs (n : Node) : n ∈ n.subs := by cases n <;> simp [Node.subs]

theorem mem_subsL {ns : List Node} {n : Node} (h : n ∈ ns) : n ∈ subsL ns := by
  induction ns with
  | nil => cases h
  | cons m ns ih =>
    rw [subsL]
    rcases List.mem_cons.1 h with rfl | h
    · exact List.mem_append.2 (.inl (Node.self_subs _))
    · exact List.mem_append.2 (.inr (ih h))

theorem mem_subsLL {ls : List (List Node)} {l : List Node} {n : Node} (hl : l ∈ ls) (h : n ∈ l) : n ∈ subsLL ls := by
  induction ls with
  | nil => cases hl
  | cons m ls ih =>
    rw [subsLL]
    rcases List.mem_cons.1 hl with rfl | hl
    · exact List.mem_append.2 (.inl (mem_subsL h))
    · exact List.mem_append.2 (.inr (ih hl))

theorem World.Has.sub {p : Str} {n m : Node} (h : W.Has p n) (hm : m ∈ n.subs) : W.Has p m := by
  obtain ⟨t, h1, h2⟩ := h
  exact ⟨t, h1, Node.subs_trans t n m h2 hm⟩

theorem World.Has.seq {p : Str} {ns : List Node} {n : Node} (h : W.Has p (.seq ns)) (hn : n ∈ ns) : W.Has p n :=
  h.sub (by rw [Node.subs]; exact List.mem_cons.2 (.inr (mem_subsL hn)))

theorem World.Has.arg {p fn : Str} {ns : List Node} {l : Location} {n : Node} (h : W.Has p (.invoke fn ns l)) (hn : n ∈ ns) :
    W.Has p n :=
  h.sub (by rw [Node.subs]; exact List.mem_cons.2 (.inr (mem_subsL hn)))

theorem World.Has.para {p : Str} {ls : List (List Node)} {ns : List Node} {n : Node} (h : W.Has p (.para ls)) (hl : ns ∈ ls)
    (hn : n ∈ ns) : W.Has p n :=
  h.sub (by rw [Node.subs]; exact List.mem_cons.2 (.inr (mem_subsLL hl hn)))

theorem World.Has.pre {p : Str} {ls : List (List Node)} {ns : List Node} {n : Node} (h : W.Has p (.pre ls)) (hl : ns ∈ ls)
    (hn : n ∈ ns) : W.Has p n :=
  h.sub (by rw [Node.subs]; exact List.mem_cons.2 (.inr (mem_subsLL hl hn)))

theorem mem_partsL {b : Bool} {cs : List Content} {d : Content} : d ∈ partsL b cs ↔ ∃ c ∈ cs, d ∈ c.parts b := by
  induction cs with
  | nil => simp [partsL]
  | cons c cs ih => simp [partsL, ih]

theorem mem_partsR {b : Bool} {rs : List (List Content)} {d : Content} : d ∈ partsR b rs ↔ ∃ r ∈ rs, ∃ c ∈ r, d ∈ c.parts b := by
  induction rs with
  | nil => simp [partsR]
  | cons c cs ih => simp [partsR, ih, mem_partsL]

theorem mem_partsD {b : Bool} {ds : List (Content × Content)} {d : Content} :
    d ∈ partsD b ds ↔ ∃ x ∈ ds, d ∈ x.1.parts b ∨ d ∈ x.2.parts b := by
  induction ds with
  | nil => simp [partsD]
  | cons c cs ih => obtain ⟨x, y⟩ := c; simp [partsD, ih, or_assoc]

variable {p : Str} {i : Nat}

theorem Origins.nil : Origins W F p i .nil := by
  intro d hd; rw [Content.parts, List.mem_singleton] at hd; rw [hd]; exact .none

theorem Origins.one {c : Content} (h : Origin W F p i c) (hp : c.parts true = [c]) : Origins W F p i c := by
  intro d hd; rw [hp, List.mem_singleton] at hd; rw [hd]; exact h

/-- A content of which the parts are known. -/
theorem Origins.of {c : Content} {cs : List Content} (h : Origin W F p i c) (hp : ∀ d ∈ c.parts true, d = c ∨ ∃ e ∈ cs, d ∈ e.parts true)
    (hc : ∀ e ∈ cs, Origins W F p i e) : Origins W F p i c := by
  intro d hd
  rcases hp d hd with rfl | ⟨e, he, hde⟩
  · exact h
  · exact hc e he d hde

theorem Origins.seq {cs : List Content} (h : ∀ c ∈ cs, Origins W F p i c) : Origins W F p i (.seq cs) :=
  .of (.seq cs) (fun d hd => by
    rw [Content.parts] at hd
    rcases List.mem_cons.1 hd with hd | hd
    · exact .inl hd
    · exact .inr (mem_partsL.1 hd)) h

theorem Origins.items {cs : List Content} {o : Bool} (h : Origins W F p i (.list cs o)) : ∀ c ∈ cs, Origins W F p i c := by
  intro c hc d hd
  refine h d ?_
  rw [Content.parts]
  exact List.mem_cons.2 (.inr (mem_partsL.2 ⟨c, hc, hd⟩))

theorem Origins.append {r c : Content} (hr : Origins W F p i r) (hc : Origins W F p i c) : Origins W F p i (append r [c]) := by
  rw [Booklit.append.eq_def]
  dsimp only
  split
  · rw [Booklit.append.eq_def]; exact hr
  · split
    · rw [Booklit.append.eq_def]; exact hc
    · next v =>
      refine .seq fun x hx => ?_
      rcases List.mem_append.1 hx with hx | hx
      · intro d hd
        refine hr d ?_
        rw [Content.parts]
        exact List.mem_cons.2 (.inr (mem_partsL.2 ⟨x, hx, hd⟩))
      · rw [List.mem_singleton.1 hx]; exact hc
    · refine .seq fun x hx => ?_
      simp only [List.mem_cons, List.not_mem_nil, or_false] at hx
      rcases hx with rfl | rfl
      · exact hr
      · exact hc

/-- Everything in a section has an origin in its file. -/
structure SecFrom (W : World) (F : Content → Prop) (p : Str) (i : Nat) (x : Sec) : Prop where
  invoke : x.invokeLoc = Location.zero ∨ W.Place p x.invokeLoc
  place : x.loc = Location.zero ∨ W.Place p x.loc
  title : Origins W F p i x.title
  titleLoc : x.title = .str [] ∨ W.Place p x.titleLoc
  body : Origins W F p i x.body
  partials : ∀ q ∈ x.partials, Origins W F p i q.2
  tags : ∀ g ∈ x.tags, (W.Place p g.loc ∨ F (.target g.name g.loc g.title g.content)) ∧ Origins W F p i g.title ∧
    Origins W F p i g.content

theorem SecFrom.fresh (parent : Option Nat) (path : Str) (plugins : List Nat) :
    SecFrom W F p i { Sec.fresh parent path with plugins := plugins } :=
  ⟨.inl rfl, .inl rfl, .one .empty rfl, .inl rfl, .one .empty rfl, by simp [Sec.fresh], by simp [Sec.fresh]⟩

/-- In all sections. -/
def HeapFrom (W : World) (F : Content → Prop) (h : Heap) : Prop :=
  ∀ i p, i < h.length → FileOf h i p → SecFrom W F p i (h.get i)

theorem FileOf.back {h h' : Heap} (he : ∀ j, (h'.get j).path = (h.get j).path ∧ (h'.get j).parent = (h.get j).parent)
    {i : Nat} {p : Str} (f : FileOf h' i p) : FileOf h i p := by
  induction f with
  | own hp => rw [(he _).1] at hp ⊢; exact .own hp
  | up hp hj _ ih => exact .up ((he _).1 ▸ hp) ((he _).2 ▸ hj) ih
  | top hp hj => exact .top ((he _).1 ▸ hp) ((he _).2 ▸ hj)

theorem FileOf.unadd {h : Heap} (hs : Sound h) {x : Sec} {i : Nat} {p : Str} (f : FileOf (h ++ [x]) i p) :
    i < h.length → FileOf h i p := by
  induction f with
  | own hp => intro hi; rw [Heap.get_append_lt _ _ hi] at hp ⊢; exact .own hp
  | up hp hj _ ih =>
    intro hi
    rw [Heap.get_append_lt _ _ hi] at hp hj
    exact .up hp hj (ih (by have := (hs _ hi).1 _ hj; omega))
  | top hp hj =>
    intro hi
    rw [Heap.get_append_lt _ _ hi] at hp hj
    exact .top hp hj

theorem FileOf.unique {h : Heap} {i : Nat} {p q : Str} (f : FileOf h i p) (g : FileOf h i q) : p = q := by
  induction f with
  | own hp =>
    cases g with
    | own _ => rfl
    | up hp' _ _ => exact absurd hp' hp
    | top hp' _ => exact absurd hp' hp
  | up hp hj _ ih =>
    cases g with
    | own hp' => exact absurd hp hp'
    | up _ hj' g => rw [hj] at hj'; cases hj'; exact ih g
    | top _ hj' => rw [hj] at hj'; cases hj'
  | top hp hj =>
    cases g with
    | own hp' => exact absurd hp hp'
    | up _ hj' _ => rw [hj] at hj'; cases hj'
    | top _ _ => rfl

theorem HeapFrom.upd {h : Heap} (hh : HeapFrom W F h) (i : Nat) (f : Sec → Sec)
    (hf : ∀ x, (f x).path = x.path ∧ (f x).parent = x.parent)
    (hs : ∀ p, i < h.length → FileOf h i p → SecFrom W F p i (h.get i) → SecFrom W F p i (f (h.get i))) :
    HeapFrom W F (h.upd i f) := by
  intro j p hj hfile
  have hb : FileOf h j p := hfile.back fun j' =>
    ⟨Heap.get_field h i j' f Sec.path fun x => (hf x).1, Heap.get_field h i j' f Sec.parent fun x => (hf x).2⟩
  rw [Heap.length_upd] at hj
  by_cases e : j = i
  · subst e
    rw [Heap.get_upd_eq _ _ hj]
    exact hs p hj hb (hh j p hj hb)
  · rw [Heap.get_upd_ne _ _ e]
    exact hh j p hj hb

theorem HeapFrom.add {h : Heap} (hs : Sound h) (hh : HeapFrom W F h) (parent : Option Nat) (path : Str) (plugins : List Nat) :
    HeapFrom W F (h ++ [{ Sec.fresh parent path with plugins := plugins }]) := by
  intro j p hj hfile
  by_cases e : j < h.length
  · rw [Heap.get_append_lt _ _ e]; exact hh j p e (hfile.unadd hs e)
  · have : j = h.length := by simp at hj; omega
    subst this
    rw [Heap.get_append_eq]
    exact SecFrom.fresh _ _ _

/-- A state in which section `i` of file `p` is evaluated; with `b`, during a call. -/
structure In (W : World) (F : Content → Prop) (b : Bool) (p : Str) (i : Nat) (s : St) : Prop where
  ok : Ok W.Wrote p i s
  heap : HeapFrom W F s.heap
  call : b = true → W.Place p (s.heap.get i).invokeLoc

theorem In.sec {b : Bool} {s : St} (h : In W F b p i s) : SecFrom W F p i (s.heap.get i) := h.heap i p h.ok.lt h.ok.file

theorem In.weaken {b : Bool} {s : St} (h : In W F true p i s) : In W F b p i s := ⟨h.ok, h.heap, fun _ => h.call rfl⟩

/-- What is known at the end. -/
structure Here (W : World) (F : Content → Prop) (G : Err → Prop) (b : Bool) (p : Str) (i : Nat) {α : Type} (m : M α)
    (Q : α → Prop) (s : St) : Prop where
  state : In W F b p i (m s).2
  frame : Frame i s (m s).2
  value : ∀ a, (m s).1 = .ok a → Q a
  error : ∀ e, (m s).1 = .err e → ErrorFrom W G e

variable {b : Bool}

theorem here_const {α : Type} {m : M α} {Q : α → Prop} {s : St} (hs : In W F b p i s) (h : (m s).2 = s)
    (hv : ∀ a, (m s).1 = .ok a → Q a) (he : ∀ e, (m s).1 = .err e → ErrorFrom W G e) : Here W F G b p i m Q s :=
  ⟨by rw [h]; exact hs, by rw [h]; exact .refl _ _, hv, he⟩

theorem here_pure {α : Type} {a : α} {Q : α → Prop} {s : St} (hs : In W F b p i s) (h : Q a) :
    Here W F G b p i (Pure.pure a : M α) Q s :=
  here_const hs rfl (fun _ e => by cases e; exact h) (fun _ e => by cases e)

theorem here_err {α : Type} {e : Err} {Q : α → Prop} {s : St} (hs : In W F b p i s) (h : ErrorFrom W G e) :
    Here W F G b p i (M.lift (.err e) : M α) Q s :=
  here_const hs rfl (fun _ e => by cases e) (fun _ e => by cases e; exact h)

theorem here_panic {α : Type} {Q : α → Prop} {s : St} (hs : In W F b p i s) :
    Here W F G b p i (M.lift .panic : M α) Q s :=
  here_const hs rfl (fun _ e => by cases e) (fun _ e => by cases e)

theorem here_bind {α β : Type} {m : M α} {f : α → M β} {Q : α → Prop} {Q' : β → Prop} {s : St} (hm : Here W F G b p i m Q s)
    (hf : ∀ a s', m s = (.ok a, s') → In W F b p i s' → Q a → Here W F G b p i (f a) Q' s') :
    Here W F G b p i (m >>= f) Q' s := by
  obtain ⟨h1, h2, h3, h4⟩ := hm
  cases hx : m s with
  | mk r s1 =>
    rw [hx] at h1 h2 h3 h4
    dsimp only at h1 h2 h3 h4
    cases r with
    | ok a =>
      have hh := hf a s1 hx h1 (h3 a rfl)
      have e : (m >>= f) s = f a s1 := by rw [M.bind_run, M.bind, hx]
      exact ⟨by rw [e]; exact hh.state, by rw [e]; exact h2.trans hh.frame, by rw [e]; exact hh.value, by rw [e]; exact hh.error⟩
    | err e' =>
      have e : (m >>= f) s = (.err e', s1) := by rw [M.bind_run, M.bind, hx]
      exact ⟨by rw [e]; exact h1, by rw [e]; exact h2, (by rw [e]; intro a h; cases h),
        by rw [e]; intro x h; cases h; exact h4 _ rfl⟩
    | panic =>
      have e : (m >>= f) s = (.panic, s1) := by rw [M.bind_run, M.bind, hx]
      exact ⟨by rw [e]; exact h1, by rw [e]; exact h2, (by rw [e]; intro a h; cases h), by rw [e]; intro x h; cases h⟩
    | more =>
      have e : (m >>= f) s = (.more, s1) := by rw [M.bind_run, M.bind, hx]
      exact ⟨by rw [e]; exact h1, by rw [e]; exact h2, (by rw [e]; intro a h; cases h), by rw [e]; intro x h; cases h⟩

theorem here_weaken {α : Type} {m : M α} {Q Q' : α → Prop} {s : St} (h : Here W F G b p i m Q s) (hq : ∀ a, Q a → Q' a) :
    Here W F G b p i m Q' s := ⟨h.state, h.frame, fun a e => hq a (h.value a e), h.error⟩

theorem here_get {α : Type} {f : St → M α} {Q : α → Prop} {s : St} (h : Here W F G b p i (f s) Q s) :
    Here W F G b p i (M.get >>= f) Q s :=
  ⟨h.state, h.frame, h.value, h.error⟩

theorem here_attempt {α : Type} {m : M α} {Q : α → Prop} {s : St} (h : Here W F G b p i m Q s) :
    Here W F G b p i (M.attempt m) (fun o => ∀ e, o = some e → ErrorFrom W G e) s := by
  obtain ⟨h1, h2, _, h4⟩ := h
  cases hx : m s with
  | mk r s1 =>
    rw [hx] at h1 h2 h4
    cases r with
    | ok a =>
      have e : M.attempt m s = (.ok none, s1) := by rw [M.attempt, hx]
      exact ⟨by rw [e]; exact h1, by rw [e]; exact h2, (by rw [e]; intro a h; cases h; intro e h; cases h),
        by rw [e]; intro x h; cases h⟩
    | err y =>
      have e : M.attempt m s = (.ok (some y), s1) := by rw [M.attempt, hx]
      exact ⟨by rw [e]; exact h1, by rw [e]; exact h2, (by rw [e]; intro a h; cases h; intro e h; cases h; exact h4 _ rfl),
        by rw [e]; intro x h; cases h⟩
    | panic =>
      have e : M.attempt m s = (.panic, s1) := by rw [M.attempt, hx]
      exact ⟨by rw [e]; exact h1, by rw [e]; exact h2, (by rw [e]; intro a h; cases h), by rw [e]; intro x h; cases h⟩
    | more =>
      have e : M.attempt m s = (.more, s1) := by rw [M.attempt, hx]
      exact ⟨by rw [e]; exact h1, by rw [e]; exact h2, (by rw [e]; intro a h; cases h), by rw [e]; intro x h; cases h⟩

theorem In.upd {s : St} (hs : In W F b p i s) (f : Sec → Sec)
    (hf : ∀ x, (f x).parent = x.parent ∧ (f x).path = x.path ∧ (x.plugins.head? = some 0 → (f x).plugins.head? = some 0))
    (hx : SecFrom W F p i (s.heap.get i) → SecFrom W F p i (f (s.heap.get i)))
    (hl : (f (s.heap.get i)).invokeLoc = (s.heap.get i).invokeLoc) : In W F b p i { s with heap := s.heap.upd i f } := by
  refine ⟨hs.ok.upd f hf, hs.heap.upd i f (fun x => ⟨(hf x).2.1, (hf x).1⟩) fun q _ hq h => ?_, fun hb => ?_⟩
  · rw [← hs.ok.file.unique hq] at h ⊢; exact hx h
  · dsimp only; rw [Heap.get_upd_eq _ _ hs.ok.lt, hl]; exact hs.call hb

theorem here_upd {s : St} (hs : In W F b p i s) (f : Sec → Sec)
    (hf : ∀ x, (f x).parent = x.parent ∧ (f x).path = x.path ∧ (x.plugins.head? = some 0 → (f x).plugins.head? = some 0))
    (hx : SecFrom W F p i (s.heap.get i) → SecFrom W F p i (f (s.heap.get i)))
    (hl : (f (s.heap.get i)).invokeLoc = (s.heap.get i).invokeLoc) :
    Here W F G b p i (M.upd i f) (fun _ => True) s :=
  ⟨hs.upd f hf hx hl, Frame.upd _ _ _, fun _ _ => trivial, fun _ e => by cases e⟩

theorem here_filePath {s : St} (hs : In W F b p i s) : Here W F G b p i (filePathM i) (· = p) s := by
  have e : filePathM i s = (.ok p, s) := by simp only [filePathM]; rw [hs.ok.filePath]; rfl
  exact here_const hs (by rw [e]) (by rw [e]; intro a h; cases h; rfl) (by rw [e]; intro a h; cases h)

/-- Evaluation in any section of the file, appending to a content of which the origins are known. -/
def EvHere (W : World) (F : Content → Prop) (G : Err → Prop) (p : Str) (ev : Ev) : Prop :=
  ∀ b i r s, In W F b p i s → Origins W F p i r → Here W F G b p i (ev i r) (Origins W F p i) s

theorem here_body {ev : Ev} (h : EvHere W F G p ev) {c : Nat} {s : St} (hs : In W F b p c s) :
    Here W F G b p c (evalBody ev c) (fun _ => True) s := by
  rw [evalBody]
  refine here_bind (h b c .nil s hs .nil) fun r s' _ hs' hr => ?_
  split
  · exact here_pure hs' trivial
  · exact here_upd hs' _ (fun _ => ⟨rfl, rfl, id⟩) (fun x => ⟨x.invoke, x.place, x.title, x.titleLoc, hr, x.partials, x.tags⟩) rfl

/-- Back from a new section. -/
theorem In.return {q : Str} {b' : Bool} {c : Nat} {s s' : St} (hs : In W F b p i s) (hl : s.heap.length ≤ s'.heap.length)
    (hold : ∀ j, j < s.heap.length → s'.heap.get j = s.heap.get j) (h' : In W F b' q c s') : In W F b p i s' :=
  ⟨⟨by have := hs.ok.lt; omega, h'.ok.sound, h'.ok.cache,
    hs.ok.file.keep hs.ok.sound (fun j hj => by rw [hold j hj]; exact ⟨rfl, rfl⟩) hs.ok.lt⟩, h'.heap,
    fun hb => by rw [hold i hs.ok.lt]; exact hs.call hb⟩

theorem In.inline {s : St} (hs : In W F b p i s) : In W F false p s.heap.length (s.inline i) := by
  refine ⟨⟨by simp [St.inline], hs.ok.sound.add _ (fun q e => by cases e; exact hs.ok.lt) (hs.ok.sound i hs.ok.lt).2,
    hs.ok.cache, ?_⟩, hs.heap.add hs.ok.sound _ _ _, fun h => by cases h⟩
  have e : (s.inline i).heap.get s.heap.length = { Sec.fresh (some i) [] with plugins := (s.heap.get i).plugins } :=
    Heap.get_append_eq _ _
  refine .up (j := i) (by rw [e]; rfl) (by rw [e]; rfl) ?_
  exact hs.ok.file.keep hs.ok.sound (fun j hj => by
    simp only [St.inline]; rw [Heap.get_append_lt _ _ hj]; exact ⟨rfl, rfl⟩) hs.ok.lt

theorem here_inline {ev : Ev} (h : EvHere W F G p ev) {s : St} (hs : In W F b p i s) :
    Here W F G b p i (evalInline i ev) (fun _ => True) s := by
  have hb := here_body h hs.inline
  obtain ⟨h1, h2, h3, h4⟩ := hb
  have hrun := evalInline_run i ev s
  cases hx : evalBody ev s.heap.length (s.inline i) with
  | mk r s' =>
    rw [hx] at h1 h2 h3 h4 hrun
    dsimp only at h1 h2 h3 h4 hrun
    obtain ⟨hl, hold⟩ := h2.new
    have hret := hs.return (Nat.le_of_lt hl) hold h1
    have hfr : Frame i s s' := ⟨Nat.le_of_lt hl, fun j hj _ => hold j hj⟩
    cases r with
    | ok _ =>
      refine ⟨?_, ?_, fun _ _ => trivial, fun e he => by rw [hrun] at he; cases he⟩
      · rw [hrun]
        dsimp only [St.linkInline]
        have hne : i ≠ s.heap.length := by have := hs.ok.lt; omega
        have hc : In W F b p i { s' with heap := s'.heap.upd s.heap.length fun x => { x with loc := (s'.heap.get i).invokeLoc } } := by
          refine ⟨hret.ok.upd _ fun _ => ⟨rfl, rfl, id⟩, hret.heap.upd _ _ (fun _ => ⟨rfl, rfl⟩) fun q _ hq x => ?_, fun hb => ?_⟩
          · have : q = p := hq.unique h1.ok.file
            subst this
            exact ⟨x.invoke, hret.sec.invoke, x.title, x.titleLoc, x.body, x.partials, x.tags⟩
          · dsimp only; rw [Heap.get_upd_ne _ _ hne]; exact hret.call hb
        exact hc.upd _ (fun _ => ⟨rfl, rfl, id⟩) (fun x => ⟨x.invoke, x.place, x.title, x.titleLoc, x.body, x.partials, x.tags⟩) rfl
      · rw [hrun]
        refine ⟨by simp [St.linkInline, Heap.length_upd]; omega, fun j hj hn => ?_⟩
        simp only [St.linkInline]
        rw [Heap.get_upd_ne _ _ hn, Heap.get_upd_ne _ _ (by omega)]
        exact hold j hj
    | err e => exact ⟨by rw [hrun]; exact hret, by rw [hrun]; exact hfr, fun _ _ => trivial, by rw [hrun]; exact h4⟩
    | panic => exact ⟨by rw [hrun]; exact hret, by rw [hrun]; exact hfr, fun _ _ => trivial, by rw [hrun]; exact h4⟩
    | more => exact ⟨by rw [hrun]; exact hret, by rw [hrun]; exact hfr, fun _ _ => trivial, by rw [hrun]; exact h4⟩

/-! ### Arguments -/

/-- What is known of a converted argument. -/
structure ArgFrom (W : World) (F : Content → Prop) (G : Err → Prop) (p : Str) (i : Nat) (n : Node) (v : ArgV) : Prop where
  str : ∀ t, v = .str t → n.gives t
  content : ∀ c, v = .content c → Origins W F p i c
  node : ∀ m ev, v = .node m ev → EvHere W F G p ev

inductive ArgsFrom (W : World) (F : Content → Prop) (G : Err → Prop) (p : Str) (i : Nat) : List Node → List ArgV → Prop
  | nil (ns : List Node) : ArgsFrom W F G p i ns []
  | cons {n : Node} {v : ArgV} {ns : List Node} {vs : List ArgV} : ArgFrom W F G p i n v → ArgsFrom W F G p i ns vs →
      ArgsFrom W F G p i (n :: ns) (v :: vs)

theorem here_convert {k : Nat} {inc : Inc} {n : Node} (h : EvHere W F G p (evalNode W k inc n)) (t : Ty) {s : St}
    (hs : In W F b p i s) : Here W F G b p i (convert W k i t (n, evalNode W k inc n)) (ArgFrom W F G p i n) s := by
  cases t with
  | string =>
    rw [convert]
    refine here_bind (h b i .nil s hs .nil) fun c s' hrun hs' hc => ?_
    refine here_get ?_
    refine here_bind (Q := fun t => n.gives t) (here_const hs' rfl (fun t ht => ?_) fun e he => ?_) fun t s'' _ hs'' ht => ?_
    · intro x hl
      have := literal_lit n hl hrun (y := []) (.inl ⟨rfl, rfl⟩)
      exact this.text ht
    · exact absurd he (heapText_no_err _ _ _ _ _)
    · exact here_pure hs'' ⟨fun u hu => by cases hu; exact ht, (by intro _ h; cases h), (by intro _ _ h; cases h)⟩
  | content =>
    rw [convert]
    refine here_bind (h b i .nil s hs .nil) fun c s' hrun hs' hc => here_pure hs' ?_
    split
    · exact ⟨(by intro _ h; cases h), (by intro _ h; cases h), (by intro _ _ h; cases h)⟩
    · exact ⟨(by intro _ h; cases h), (by intro d h; cases h; exact hc), (by intro _ _ h; cases h)⟩
  | node =>
    rw [convert]
    exact here_pure hs ⟨(by intro _ h; cases h), (by intro _ h; cases h), (by intro _ _ hh; cases hh; exact h)⟩
  | other => rw [convert]; exact here_err hs (.plain _)

theorem here_convertAll {k : Nat} {inc : Inc} (v : Option Ty) : ∀ (ns : List Node) (ts : List Ty) {s : St},
    (∀ n ∈ ns, EvHere W F G p (evalNode W k inc n)) → In W F b p i s →
    Here W F G b p i (convertAll W k i ts v (evalArgs W k inc ns)) (ArgsFrom W F G p i ns) s
  | [], ts, s, _, hs => by
    have : convertAll W k i ts v (evalArgs W k inc []) = (Pure.pure [] : M _) := by cases ts <;> cases v <;> rfl
    rw [this]
    exact here_pure hs (.nil _)
  | n :: ns, ts, s, h, hs => by
    rw [evalArgs]
    have step : ∀ t ts', Here W F G b p i (convert W k i t (n, evalNode W k inc n) >>= fun x =>
        convertAll W k i ts' v (evalArgs W k inc ns) >>= fun xs => (Pure.pure (x :: xs) : M _))
        (ArgsFrom W F G p i (n :: ns)) s := by
      intro t ts'
      refine here_bind (here_convert (h n (by simp)) t hs) fun x s1 _ hs1 hx => ?_
      refine here_bind (here_convertAll v ns ts' (fun m hm => h m (by simp [hm])) hs1) fun xs s2 _ hs2 hxs => ?_
      exact here_pure hs2 (.cons hx hxs)
    cases ts with
    | cons t ts => cases v <;> exact step t ts
    | nil =>
      cases v with
      | none => exact here_pure hs (.nil _)
      | some t => exact step t []

theorem ArgsFrom.contents {ns : List Node} {vs : List ArgV} (h : ArgsFrom W F G p i ns vs) :
    ∀ c ∈ contentArgs vs, Origins W F p i c := by
  induction h with
  | nil => simp [contentArgs]
  | @cons n v ns vs h1 _ ih =>
    cases v with
    | content c =>
      simp only [contentArgs, List.mem_cons, forall_eq_or_imp]
      exact ⟨h1.content c rfl, ih⟩
    | str _ => exact ih
    | node _ _ => exact ih
    | zero => exact ih

theorem ArgsFrom.strs {ns : List Node} {vs : List ArgV} (h : ArgsFrom W F G p i ns vs) :
    ∀ t ∈ strArgs vs, ∃ n ∈ ns, n.gives t := by
  induction h with
  | nil => simp [strArgs]
  | @cons n v ns vs h1 _ ih =>
    cases v with
    | str t =>
      simp only [strArgs, List.mem_cons, forall_eq_or_imp]
      refine ⟨⟨n, by simp, h1.str t rfl⟩, fun t ht => ?_⟩
      obtain ⟨m, hm, hg⟩ := ih t ht
      exact ⟨m, .inr hm, hg⟩
    | content _ => intro t ht; obtain ⟨m, hm, hg⟩ := ih t ht; exact ⟨m, by simp [hm], hg⟩
    | node _ _ => intro t ht; obtain ⟨m, hm, hg⟩ := ih t ht; exact ⟨m, by simp [hm], hg⟩
    | zero => intro t ht; obtain ⟨m, hm, hg⟩ := ih t ht; exact ⟨m, by simp [hm], hg⟩

/-! ### Methods -/

/-- What is known of a result. -/
structure RetFrom (W : World) (F : Content → Prop) (G : Err → Prop) (p : Str) (i : Nat) (ret : Ret) : Prop where
  content : ∀ c, ret = .content c → Origins W F p i c
  both : ∀ c, ret = .both c none → Origins W F p i c
  error : ∀ e, ret = .error (some e) → ErrorFrom W G e
  bothError : ∀ c e, ret = .both c (some e) → ErrorFrom W G e

theorem RetFrom.fine : RetFrom W F G p i (.error none) :=
  ⟨(by intro _ h; cases h), (by intro _ h; cases h), (by intro _ h; cases h), (by intro _ _ h; cases h)⟩

theorem RetFrom.nothing : RetFrom W F G p i .nothing :=
  ⟨(by intro _ h; cases h), (by intro _ h; cases h), (by intro _ h; cases h), (by intro _ _ h; cases h)⟩

theorem RetFrom.ofErr {o : Option Err} (h : ∀ e, o = some e → ErrorFrom W G e) : RetFrom W F G p i (.error o) :=
  ⟨(by intro _ h; cases h), (by intro _ h; cases h), (by intro e he; cases he; exact h _ rfl), (by intro _ _ h; cases h)⟩

theorem RetFrom.ofContent {c : Content} (h : Origins W F p i c) : RetFrom W F G p i (.content c) :=
  ⟨(by intro _ he; cases he; exact h), (by intro _ h; cases h), (by intro e he; cases he), (by intro _ _ h; cases h)⟩

theorem RetFrom.ofBoth {c : Content} (h : Origins W F p i c) : RetFrom W F G p i (.both c none) :=
  ⟨(by intro _ he; cases he), (by intro _ he; cases he; exact h), (by intro e he; cases he), (by intro _ _ h; cases h)⟩

theorem RetFrom.ofBothErr {c : Content} {e : Err} (h : ErrorFrom W G e) : RetFrom W F G p i (.both c (some e)) :=
  ⟨(by intro _ he; cases he), (by intro _ he; cases he), (by intro e he; cases he), (by intro _ _ he; cases he; exact h)⟩

/-- What is known of the callback for included files. -/
def IncHere (W : World) (F : Content → Prop) (G : Err → Prop) (inc : Inc) : Prop :=
  ∀ b p i q s, In W F b p i s → q ≠ [] → Here W F G b p i (inc i q) (fun _ => True) s

theorem tableRows_from : ∀ {cs : List Content} {rows}, (∀ c ∈ cs, Origins W F p i c) → tableRows cs = some rows →
    ∀ r ∈ rows, ∀ x ∈ r, Origins W F p i x
  | [], rows, _, h => by cases h; simp
  | c :: cs, rows, hc, h => by
    cases c with
    | list items o =>
      simp only [tableRows, Option.map_eq_some_iff] at h
      obtain ⟨rs, h1, rfl⟩ := h
      simp only [List.mem_cons, forall_eq_or_imp] at hc ⊢
      exact ⟨hc.1.items, tableRows_from hc.2 h1⟩
    | _ => cases h

theorem definitionItems_from : ∀ {cs : List Content} {ds}, (∀ c ∈ cs, Origins W F p i c) →
    definitionItems cs = some ds → ∀ d ∈ ds, Origins W F p i d.1 ∧ Origins W F p i d.2
  | [], rows, _, h => by cases h; simp
  | c :: cs, rows, hc, h => by
    rw [definitionItems.eq_def] at h
    split at h
    · next e => cases e
    · next a b o ds e =>
      cases e
      simp only [Option.map_eq_some_iff] at h
      obtain ⟨rs, h1, rfl⟩ := h
      simp only [List.mem_cons, forall_eq_or_imp] at hc ⊢
      have := hc.1.items
      exact ⟨⟨this a (by simp), this b (by simp)⟩, definitionItems_from hc.2 h1⟩
    · cases h

theorem here_base {k : Nat} {inc : Inc} (hinc : IncHere W F G inc) {fn : Str} {loc : Location} {m : Base} {nodes : List Node}
    {vals : List ArgV} (hname : baseMethods.lookup (methodName fn) = some m) (hw : W.Has p (.invoke fn nodes loc))
    (hv : ArgsFrom W F G p i nodes vals) {s : St} (hs : In W F true p i s) :
    Here W F G true p i (callBase W k inc i m vals) (RetFrom W F G p i) s := by
  have hmem := lookup_mem hname
  have hcs := hv.contents
  have hstr := hv.strs
  unfold callBase
  split
  · split
    · exact here_pure hs (.ofErr (by intro e he; cases he; exact .plain _))
    · refine here_bind (here_upd hs _ (fun x => ⟨rfl, rfl, ?_⟩)
        (fun x => ⟨x.invoke, x.place, x.title, x.titleLoc, x.body, x.partials, x.tags⟩) rfl) fun _ s' _ hs' _ => here_pure hs' .fine
      intro h
      simp only [Sec.usePlugin]
      cases hp : x.plugins with
      | nil => rw [hp] at h; cases h
      | cons a as => rw [hp] at h; exact h
  · exact here_bind (here_upd hs _ (fun x => ⟨rfl, rfl, id⟩)
      (fun x => ⟨x.invoke, x.place, x.title, x.titleLoc, x.body, x.partials, x.tags⟩) rfl) fun _ s' _ hs' _ => here_pure hs' .nothing
  · next title tags =>
    refine here_get ?_
    dsimp only
    have htitle : Origins W F p i title := hcs title (by simp [contentArgs])
    split
    · refine here_bind (Q := fun _ => True) (here_const hs (titleNames_state _ _ _) (fun _ _ => trivial) fun e he => ?_)
        fun names s' hrun hs' _ => ?_
      · exfalso
        revert he
        unfold titleNames
        split
        · rw [M.bind_run, M.bind]
          have : ∀ e, (defaultTag W k title s).1 ≠ .err e := by
            intro e
            rw [defaultTag]
            split
            · intro h; cases h
            · next c _ =>
              dsimp only
              intro h
              cases ht : s.heap.text W.brokenOk k c with
              | err e => exact heapText_no_err _ _ _ _ _ ht
              | ok _ => rw [ht] at h; cases h
              | panic => rw [ht] at h; cases h
              | more => rw [ht] at h; cases h
          cases hx : defaultTag W k title s with
          | mk r s2 =>
            rw [hx] at this
            cases r with
            | err e => exact absurd rfl (this e)
            | _ => intro h; cases h
        · intro h; cases h
      · have e : s' = s := by
          have := titleNames_state (W := W) (k := k) title (strArgs tags) s
          rw [hrun] at this
          exact this
        subst e
        refine here_bind (Q := fun _ => True) ?_ fun _ s'' _ hs'' _ => here_pure hs'' .fine
        rw [setTitle]
        refine here_upd hs' _ (fun x => ⟨rfl, rfl, id⟩) (fun x => ⟨x.invoke, x.place, htitle, .inr (hs'.call rfl), x.body, x.partials, ?_⟩) rfl
        intro g hg
        obtain ⟨n, _, rfl⟩ := List.mem_map.1 hg
        exact ⟨.inl (hs'.call rfl), htitle, .nil⟩
    · next hne =>
      refine here_bind (here_filePath hs) fun path s' hrun hs' hp => here_pure hs' (.ofErr ?_)
      intro e he
      cases he
      subst hp
      refine .titleTwice ?_ (hs.call rfl)
      rcases hs.sec.titleLoc with h | h
      · rw [h] at hne; exact absurd rfl hne
      · exact h
  · next c =>
    have hn : methodName fn = q%"Aux" := by simpa [baseMethods] using hmem
    exact here_pure hs (.ofContent (.of (cs := [c]) (.aux hw hn) (fun d hd => by
      rw [Content.parts] at hd; simpa using hd) (by simpa [contentArgs] using hcs)))
  · next n ev =>
    cases hv with
    | cons h1 _ => exact here_bind (here_attempt (here_inline (h1.node _ _ rfl) hs)) fun o s' _ hs' ho => here_pure hs' (.ofErr ho)
  · refine here_bind (here_filePath hs) fun path s' _ hs' _ => ?_
    exact here_bind (here_attempt (hinc true p i _ s' hs' (joinPath_ne _ _))) fun o s'' _ hs'' ho => here_pure hs'' (.ofErr ho)
  · exact here_bind (here_upd hs _ (fun x => ⟨rfl, rfl, id⟩)
      (fun x => ⟨x.invoke, x.place, x.title, x.titleLoc, x.body, x.partials, x.tags⟩) rfl) fun _ s' _ hs' _ => here_pure hs' .nothing
  · refine here_bind (here_upd hs _ (fun x => ⟨rfl, rfl, id⟩)
      (fun x => ⟨x.invoke, x.place, x.title, x.titleLoc, x.body, x.partials, x.tags⟩) rfl) fun _ s' _ hs' _ => ?_
    refine here_get (here_bind (Q := fun _ => True) (here_const hs' rfl (fun _ _ => trivial) fun e he => ?_) fun o s'' _ hs'' _ => ?_)
    · cases h : s'.heap.splitPrevented (s'.heap.length + 1) i <;> simp [M.lift, h, Res.ofFuel] at he
    · split
      · exact here_pure hs'' .nothing
      · exact here_bind (here_upd hs'' _ (fun x => ⟨rfl, rfl, id⟩)
          (fun x => ⟨x.invoke, x.place, x.title, x.titleLoc, x.body, x.partials, x.tags⟩) rfl) fun _ s' _ hs' _ => here_pure hs' .nothing
  · exact here_bind (here_upd hs _ (fun x => ⟨rfl, rfl, id⟩)
      (fun x => ⟨x.invoke, x.place, x.title, x.titleLoc, x.body, x.partials, x.tags⟩) rfl) fun _ s' _ hs' _ => here_pure hs' .nothing
  · have hn : methodName fn = q%"TableOfContents" := by simpa [baseMethods] using hmem
    exact here_pure hs (.ofContent (.one (.toc hw hn) rfl))
  · next st c =>
    exact here_pure hs (.ofContent (.of (cs := [c]) (.styled hw hmem) (fun d hd => by
      rw [Content.parts] at hd; simpa [partsP] using hd) (by simpa [contentArgs] using hcs)))
  · next c url =>
    have hn : methodName fn = q%"Link" := by simpa [baseMethods] using hmem
    cases hv with
    | cons h1 h2 =>
      cases h2 with
      | @cons b v ns vs h3 h4 =>
        refine here_pure hs (.ofContent (.of (cs := [c]) (.link hw hn ⟨b, rfl, h3.str _ rfl⟩) (fun d hd => by
          rw [Content.parts] at hd; simpa using hd) (by simpa [contentArgs] using hcs)))
  · next tag cs =>
    have hn : methodName fn = q%"Reference" := by simpa [baseMethods] using hmem
    cases hv with
    | cons h1 _ =>
      refine here_get (here_pure hs (.ofContent (.of (cs := [(contentArgs cs).headD .nil])
        (.ref hw hn (h1.str _ rfl) (hs.call rfl)) (fun d hd => by rw [Content.parts] at hd; simpa using hd) ?_)))
      intro e he
      rw [List.mem_singleton.1 he]
      cases hx : contentArgs cs with
      | nil => exact .nil
      | cons c _ => exact hcs c (by simp [contentArgs, hx])
  · next tag cs =>
    have hn : methodName fn = q%"Target" := by simpa [baseMethods] using hmem
    cases hv with
    | cons h1 _ =>
      refine here_get (here_pure hs (.ofContent ?_))
      have mk : ∀ {a b : Content}, Origins W F p i a → Origins W F p i b →
          Origins W F p i (.target tag (s.heap.get i).invokeLoc a b) := by
        intro a b ha hb
        refine .of (cs := [a, b]) (.target hw hn (h1.str _ rfl) (hs.call rfl)) (fun d hd => ?_) ?_
        · rw [Content.parts] at hd; simpa using hd
        · intro e he
          simp only [List.mem_cons, List.not_mem_nil, or_false] at he
          rcases he with rfl | rfl
          · exact ha
          · exact hb
      split
      · next ti c hx => exact mk (hcs _ (by simp [contentArgs, hx])) (hcs _ (by simp [contentArgs, hx]))
      · next ti hx => exact mk (hcs _ (by simp [contentArgs, hx])) .nil
      · exact mk (.one (.name hw hn (h1.str _ rfl)) rfl) .nil
  · have hn : methodName fn = q%"List" := by simpa [baseMethods] using hmem
    exact here_pure hs (.ofContent (.of (.list hw (by simp [hn])) (fun d hd => by
      rw [Content.parts] at hd; simpa [mem_partsL] using hd) hcs))
  · have hn : methodName fn = q%"OrderedList" := by simpa [baseMethods] using hmem
    exact here_pure hs (.ofContent (.of (.orderedList hw hn) (fun d hd => by
      rw [Content.parts] at hd; simpa [mem_partsL] using hd) hcs))
  · next path ds =>
    have hn : methodName fn = q%"Image" := by simpa [baseMethods] using hmem
    cases hv with
    | cons h1 h2 =>
      refine here_pure hs (.ofContent (.one (.image hw hn (h1.str _ rfl) ?_) rfl))
      cases hx : strArgs ds with
      | nil => exact .inl rfl
      | cons d _ => exact .inr (h2.strs d (by simp [hx]))
  · next name c =>
    refine here_bind (here_upd hs _ (fun x => ⟨rfl, rfl, id⟩)
      (fun x => ⟨x.invoke, x.place, x.title, x.titleLoc, x.body, ?_, x.tags⟩) rfl) fun _ s' _ hs' _ => here_pure hs' .nothing
    intro q hq
    rcases List.mem_cons.1 hq with rfl | hq
    · exact hcs c (by simp [contentArgs])
    · exact x.partials q (List.mem_filter.1 hq).1
  · have hn : methodName fn = q%"Table" := by simpa [baseMethods] using hmem
    split
    · next rows hr =>
      have := tableRows_from hcs hr
      refine here_pure hs (.ofBoth (.of (cs := rows.flatten) (.table hw hn) (fun d hd => ?_) ?_))
      · rw [Content.parts] at hd
        rcases List.mem_cons.1 hd with hd | hd
        · exact .inl hd
        · obtain ⟨r, hr, c, hc, hd⟩ := mem_partsR.1 hd
          exact .inr ⟨c, List.mem_flatten.2 ⟨r, hr, hc⟩, hd⟩
      · intro e he
        obtain ⟨r, hr, he⟩ := List.mem_flatten.1 he
        exact this r hr e he
    · exact here_pure hs (.ofBothErr (.plain _))
  · have hn : methodName fn = q%"TableRow" := by simpa [baseMethods] using hmem
    exact here_pure hs (.ofContent (.of (.list hw (by simp [hn])) (fun d hd => by
      rw [Content.parts] at hd; simpa [mem_partsL] using hd) hcs))
  · have hn : methodName fn = q%"Definitions" := by simpa [baseMethods] using hmem
    split
    · next ds hr =>
      have := definitionItems_from hcs hr
      refine here_pure hs (.ofBoth (.of (cs := ds.flatMap fun d => [d.1, d.2]) (.defs hw hn) (fun d hd => ?_) ?_))
      · rw [Content.parts] at hd
        rcases List.mem_cons.1 hd with hd | hd
        · exact .inl hd
        · obtain ⟨x, hx, hd⟩ := mem_partsD.1 hd
          rcases hd with hd | hd
          · exact .inr ⟨x.1, List.mem_flatMap.2 ⟨x, hx, by simp⟩, hd⟩
          · exact .inr ⟨x.2, List.mem_flatMap.2 ⟨x, hx, by simp⟩, hd⟩
      · intro e he
        obtain ⟨x, hx, he⟩ := List.mem_flatMap.1 he
        simp only [List.mem_cons, List.not_mem_nil, or_false] at he
        rcases he with rfl | rfl
        · exact (this x hx).1
        · exact (this x hx).2
    · exact here_pure hs (.ofBothErr (.plain _))
  · next c d =>
    have hn : methodName fn = q%"Definition" := by simpa [baseMethods] using hmem
    exact here_pure hs (.ofContent (.of (cs := [c, d]) (.list hw (by simp [hn])) (fun d hd => by
      rw [Content.parts] at hd; simpa [partsL] using hd) (by simpa [contentArgs] using hcs)))
  · exact here_panic hs

theorem here_foreign (hF : W.Makes F) (hG : W.Fails G) {f : Foreign} {q : Nat} {name : Str} (hf : W.foreign q name = some f)
    {nodes : List Node} {vals : List ArgV} (hz : ¬ vals.any ArgV.isZero = true) (hv : ArgsFrom W F G p i nodes vals) {s : St}
    (hs : In W F b p i s) :
    Here W F G b p i (fun s => (.ok (f.run s.heap i (vals.map ArgV.raw)), s)) (RetFrom W F G p i) s := by
  refine here_const hs rfl (fun ret hret => ?_) fun e he => by cases he
  injection hret with hret
  have hmake : ∀ c, (f.run s.heap i (vals.map ArgV.raw) = .content c ∨ f.run s.heap i (vals.map ArgV.raw) = .both c none) →
      Origins W F p i c := by
    intro c hc d hd
    rcases hF q name f hf _ _ _ c hc d hd with h | ⟨a, ha, hd⟩
    · exact .plugin h
    · obtain ⟨v, hv1, hv2⟩ := List.mem_map.1 ha
      cases v with
      | content d =>
        injection hv2 with hv2
        subst hv2
        refine hv.contents d ?_ _ hd
        clear hv ha hz hc hret
        induction vals with
        | nil => cases hv1
        | cons w ws ih =>
          rcases List.mem_cons.1 hv1 with rfl | h
          · simp [contentArgs]
          · have := ih h
            cases w <;> simp [contentArgs, this]
      | zero => exact absurd (List.any_eq_true.2 ⟨_, hv1, rfl⟩) hz
      | _ => cases hv2
  refine ⟨fun c hc => hmake c (.inl (hret.trans hc)), fun c hc => hmake c (.inr (hret.trans hc)), fun e he => ?_, fun c e he => ?_⟩
  · exact .plugin (hG q name f hf _ _ _ e (.inl (hret.trans he)))
  · exact .plugin (hG q name f hf _ _ _ e (.inr ⟨c, hret.trans he⟩))

theorem here_finish {fn : Str} {loc : Location} {nodes : List Node} {r : Content} (hr : Origins W F p i r)
    (hw : W.Has p (.invoke fn nodes loc)) {ret : Ret} (h : RetFrom W F G p i ret) {s : St} (hs : In W F b p i s) :
    Here W F G b p i (finish fn p loc r ret) (Origins W F p i) s := by
  have herr : ∀ e, ErrorFrom W G e → ErrorFrom W G (returnedError fn p loc e) := by
    intro e he
    rw [returnedError]
    split
    · exact he
    · next hp => exact .failed hw he (by simpa using hp)
  unfold finish
  split
  · exact here_pure hs hr
  · exact here_pure hs hr
  · exact here_err hs (herr _ (h.error _ rfl))
  · split
    · exact here_panic hs
    · exact here_pure hs (hr.append (h.content _ rfl))
  · exact here_err hs (herr _ (h.bothError _ _ rfl))
  · split
    · exact here_panic hs
    · exact here_pure hs (hr.append (h.both _ rfl))
  · exact here_err hs (.plain _)

theorem Here.lower {α : Type} {m : M α} {Q : α → Prop} {s : St} (h : Here W F G true p i m Q s) : Here W F G b p i m Q s :=
  ⟨h.state.weaken, h.frame, h.value, h.error⟩

theorem here_invoke (hF : W.Makes F) (hG : W.Fails G) {k : Nat} {inc : Inc} (hinc : IncHere W F G inc) {fn : Str} {loc : Location}
    {nodes : List Node} (hw : W.Has p (.invoke fn nodes loc)) (ha : ∀ n ∈ nodes, EvHere W F G p (evalNode W k inc n)) :
    EvHere W F G p (invokeFn W k inc fn loc (evalArgs W k inc nodes)) := by
  intro b i r s hs hr
  rw [invokeFn]
  have hplace : W.Place p loc := ⟨fn, nodes, hw⟩
  -- the first write starts the call
  have h1 : In W F true p i { s with heap := s.heap.upd i fun x => { x with invokeLoc := loc } } := by
    refine ⟨hs.ok.upd _ fun x => ⟨rfl, rfl, id⟩, hs.heap.upd i _ (fun _ => ⟨rfl, rfl⟩) fun q _ hq x => ?_, fun _ => ?_⟩
    · rw [← hs.ok.file.unique hq] at x ⊢
      exact ⟨.inr hplace, x.place, x.title, x.titleLoc, x.body, x.partials, x.tags⟩
    · dsimp only
      rw [Heap.get_upd_eq _ _ hs.ok.lt]
      exact hplace
  have hrest : Here W F G true p i (filePathM i >>= fun path => M.get >>= fun st =>
      match findMethod W (methodName fn) (st.heap.get i).plugins with
      | none => M.lift (.err (.undefined fn path loc))
      | some m =>
        if arityOk m.sig (evalArgs W k inc nodes).length then do
          let vals ← convertAll W k i m.sig.1 m.sig.2 (evalArgs W k inc nodes)
          let ret ← callMethod W k inc i m vals
          finish fn path loc r ret
        else M.lift (.err (.plain q%"argument count mismatch"))) (Origins W F p i)
      { s with heap := s.heap.upd i fun x => { x with invokeLoc := loc } } := by
    refine here_bind (here_filePath h1) fun path s1 _ hs1 hp => ?_
    subst hp
    refine here_get ?_
    cases hm : findMethod W (methodName fn) (s1.heap.get i).plugins with
    | none => exact here_err hs1 (.undefined hw)
    | some m =>
      dsimp only
      split
      · refine here_bind (here_convertAll _ nodes _ ha hs1) fun vals s2 _ hs2 hv => ?_
        refine here_bind (Q := RetFrom W F G path i) ?_ fun ret s3 _ hs3 hret => here_finish hr hw hret hs3
        unfold callMethod
        split
        · exact here_panic hs2
        · next hz =>
          cases m with
          | base m => exact here_base hinc (findMethod_base_name hm) hw hv hs2
          | foreign f =>
            obtain ⟨q, name, hf⟩ := findMethod_in hm
            exact here_foreign hF hG hf hz hv hs2
      · exact here_err hs1 (.plain _)
  exact ⟨hrest.state.weaken, (Frame.upd i s _).trans hrest.frame, hrest.value, hrest.error⟩

theorem here_finishPara {r : Content} (hr : Origins W F p i r) {ls : List (List Node)} (hw : W.Has p (.para ls)) {xs : List Content}
    (h : ∀ x ∈ xs, Origins W F p i x) {s : St} (hs : In W F b p i s) :
    Here W F G b p i (finishPara r xs) (Origins W F p i) s := by
  have mk : Origins W F p i (.para xs) := .of (.para hw) (fun d hd => by
    rw [Content.parts] at hd; simpa [mem_partsL] using hd) h
  match xs with
  | [] => exact here_pure hs hr
  | [x] =>
    simp only [finishPara]
    cases isFlow x with
    | none => exact here_panic hs
    | some f =>
      cases f with
      | false => exact here_pure hs (hr.append (h x (by simp)))
      | true => exact here_pure hs (hr.append mk)
  | x :: y :: zs => exact here_pure hs (hr.append mk)

mutual
theorem here_node (hF : W.Makes F) (hG : W.Fails G) {k : Nat} {inc : Inc} (hinc : IncHere W F G inc) :
    ∀ (n : Node), W.Has p n → EvHere W F G p (evalNode W k inc n)
  | .str t, hw => fun b i r s hs hr => by
    rw [evalNode]; exact here_pure hs (hr.append (.one (.text hw) rfl))
  | .seq ns, hw => by rw [evalNode]; exact here_seq hF hG hinc ns fun n hn => hw.seq hn
  | .para ls, hw => fun b i r s hs hr => by
    rw [evalNode]
    exact here_bind (here_lines hF hG hinc ls (fun l hl n hn => hw.para hl hn) b i s hs) fun xs s' _ hs' hx =>
      here_finishPara hr hw hx hs'
  | .pre ls, hw => fun b i r s hs hr => by
    rw [evalNode]
    refine here_bind (here_lines hF hG hinc ls (fun l hl n hn => hw.pre hl hn) b i s hs) fun xs s' _ hs' hx =>
      here_pure hs' (hr.append ?_)
    exact .of (.pre hw) (fun d hd => by rw [Content.parts] at hd; simpa [mem_partsL] using hd) hx
  | .invoke fn args loc, hw => by
    rw [evalNode]
    exact here_invoke hF hG hinc hw (here_args hF hG hinc args fun n hn => hw.arg hn)
theorem here_seq (hF : W.Makes F) (hG : W.Fails G) {k : Nat} {inc : Inc} (hinc : IncHere W F G inc) :
    ∀ (ns : List Node), (∀ n ∈ ns, W.Has p n) → EvHere W F G p (evalSeq W k inc ns)
  | [], _ => fun b i r s hs hr => by rw [evalSeq]; exact here_pure hs hr
  | n :: ns, hw => fun b i r s hs hr => by
    rw [evalSeq]
    exact here_bind (here_node hF hG hinc n (hw n (by simp)) b i r s hs hr) fun r' s' _ hs' hr' =>
      here_seq hF hG hinc ns (fun m hm => hw m (by simp [hm])) b i r' s' hs' hr'
theorem here_lines (hF : W.Makes F) (hG : W.Fails G) {k : Nat} {inc : Inc} (hinc : IncHere W F G inc) :
    ∀ (ls : List (List Node)), (∀ l ∈ ls, ∀ n ∈ l, W.Has p n) → ∀ b i s, In W F b p i s →
      Here W F G b p i (evalLines W k inc ls i) (fun xs => ∀ x ∈ xs, Origins W F p i x) s
  | [], _, b, i, s, hs => by rw [evalLines]; exact here_pure hs (by simp)
  | l :: ls, hw, b, i, s, hs => by
    rw [evalLines]
    refine here_bind (here_seq hF hG hinc l (hw l (by simp)) b i .nil s hs .nil) fun x s1 _ hs1 hx => ?_
    refine here_bind (here_lines hF hG hinc ls (fun m hm => hw m (by simp [hm])) b i s1 hs1) fun xs s2 _ hs2 hxs => ?_
    refine here_pure hs2 ?_
    split
    · exact hxs
    · simp only [List.mem_cons, forall_eq_or_imp]; exact ⟨hx, hxs⟩
theorem here_args (hF : W.Makes F) (hG : W.Fails G) {k : Nat} {inc : Inc} (hinc : IncHere W F G inc) :
    ∀ (ns : List Node), (∀ n ∈ ns, W.Has p n) → ∀ n ∈ ns, EvHere W F G p (evalNode W k inc n)
  | [], _ => by simp
  | n :: ns, hw => fun m hm => by
    rcases List.mem_cons.1 hm with h | h
    · rw [h]; exact here_node hF hG hinc n (hw n (by simp))
    · exact here_args hF hG hinc ns (fun m hm => hw m (by simp [hm])) m h
end

/-! ### Files -/

/-- A state between evaluations. -/
structure Between (W : World) (F : Content → Prop) (s : St) : Prop where
  sound : Sound s.heap
  cache : CacheOk W s
  heap : HeapFrom W F s.heap

/-- What is known after evaluating a file. -/
structure FileHere (W : World) (F : Content → Prop) (G : Err → Prop) (s : St) (x : Res Nat × St) : Prop where
  state : Between W F x.2
  len : s.heap.length ≤ x.2.heap.length
  old : ∀ j, j < s.heap.length → x.2.heap.get j = s.heap.get j
  error : ∀ e, x.1 = .err e → ErrorFrom W G e
  value : ∀ c, x.1 = .ok c → c = s.heap.length ∧ c < x.2.heap.length

theorem parseFile_error {path : Str} {info : FileInfo} {e : Err} (hf : W.fs path = some info) (h : parseFile path info = .err e) :
    ErrorFrom W G e := by
  rw [parseFile] at h
  cases hd : info.data with
  | none => rw [hd] at h; cases h; exact .plain _
  | some d =>
    rw [hd] at h
    dsimp only at h
    cases hp : Peg.parseDoc d with
    | none => rw [hp] at h; cases h
    | some o =>
      rw [hp] at h
      cases o with
      | err l => cases h; exact .parse hf hd hp
      | panic l => exact absurd hp (Props.C09_no_internal_failure _ _ _)
      | ok v => cases v <;> cases h

theorem here_file (hF : W.Makes F) (hG : W.Fails G) (hfs : W.fs [] = none) : ∀ (n : Nat) (parent : Option Nat) (path : Str)
    (plugins : List Nat) (s : St), Between W F s → (∀ q, parent = some q → q < s.heap.length) → plugins.head? = some 0 →
    FileHere W F G s (evalFile W n parent path plugins s)
  | 0, parent, path, plugins, s, hs, _, _ =>
    ⟨hs, Nat.le_refl _, fun _ _ => rfl, (by intro e h; cases h), (by intro e h; cases h)⟩
  | n + 1, parent, path, plugins, s, hs, hpar, hplug => by
    have hinc : IncHere W F G (incl W n) := by
      intro b p i q s hs hq
      have h := here_file hF hG hfs n (some i) q [0] s ⟨hs.ok.sound, hs.ok.cache, hs.heap⟩ (fun q h => by cases h; exact hs.ok.lt) rfl
      obtain ⟨h1, h2, h3, h4, h5⟩ := h
      cases hx : evalFile W n (some i) q [0] s with
      | mk r s' =>
        rw [hx] at h1 h2 h3 h4 h5
        dsimp only at h1 h2 h3 h4 h5
        have hin : In W F b p i s' := ⟨hs.ok.later h2 h1.sound h1.cache fun j hj => by rw [h3 j hj]; exact ⟨rfl, rfl⟩, h1.heap,
          fun hb => by rw [h3 i hs.ok.lt]; exact hs.call hb⟩
        have hfr : Frame i s s' := ⟨h2, fun j hj _ => h3 j hj⟩
        cases r with
        | ok c =>
          have e : incl W n i q s = (.ok (), { s' with heap := s'.heap.upd i fun x => { x with children := x.children ++ [c] } }) := by
            simp only [incl, M.bind_run, M.bind, hx]; rfl
          refine ⟨?_, ?_, fun _ _ => trivial, by rw [e]; intro x h; cases h⟩
          · rw [e]
            exact hin.upd _ (fun _ => ⟨rfl, rfl, id⟩) (fun x => ⟨x.invoke, x.place, x.title, x.titleLoc, x.body, x.partials, x.tags⟩) rfl
          · rw [e]; exact hfr.trans (.upd _ _ _)
        | err e' =>
          have e : incl W n i q s = (.err e', s') := by simp only [incl, M.bind_run, M.bind, hx]
          exact ⟨by rw [e]; exact hin, by rw [e]; exact hfr, fun _ _ => trivial, by rw [e]; intro x h; cases h; exact h4 _ rfl⟩
        | panic =>
          have e : incl W n i q s = (.panic, s') := by simp only [incl, M.bind_run, M.bind, hx]
          exact ⟨by rw [e]; exact hin, by rw [e]; exact hfr, fun _ _ => trivial, by rw [e]; intro x h; cases h⟩
        | more =>
          have e : incl W n i q s = (.more, s') := by simp only [incl, M.bind_run, M.bind, hx]
          exact ⟨by rw [e]; exact hin, by rw [e]; exact hfr, fun _ _ => trivial, by rw [e]; intro x h; cases h⟩
    have hrun := evalFile_run W n parent path plugins s
    cases hinfo : W.fs path with
    | none =>
      rw [hinfo] at hrun
      rw [hrun]
      exact ⟨hs, Nat.le_refl _, fun _ _ => rfl, (by intro e h; cases h; exact .plain _), (by intro e h; cases h)⟩
    | some info =>
      rw [hinfo] at hrun
      dsimp only at hrun
      cases hnode : nodeOf s path info with
      | err e =>
        rw [hnode] at hrun
        rw [hrun]
        refine ⟨hs, Nat.le_refl _, fun _ _ => rfl, ?_, (by intro e h; cases h)⟩
        intro e' h
        cases h
        rw [nodeOf] at hnode
        cases hc : cached s.cache path info.mtime with
        | some m => rw [hc] at hnode; cases hnode
        | none => rw [hc] at hnode; exact parseFile_error hinfo hnode
      | panic =>
        rw [hnode] at hrun
        rw [hrun]
        exact ⟨hs, Nat.le_refl _, fun _ _ => rfl, (by intro e h; cases h), (by intro e h; cases h)⟩
      | more =>
        rw [hnode] at hrun
        rw [hrun]
        exact ⟨hs, Nat.le_refl _, fun _ _ => rfl, (by intro e h; cases h), (by intro e h; cases h)⟩
      | ok node =>
        rw [hnode] at hrun
        dsimp only at hrun
        have hw : W.Wrote path node := hs.cache.nodeOf hinfo hnode
        have hpath : path ≠ [] := by rintro rfl; rw [hfs] at hinfo; cases hinfo
        have hstart : In W F false path s.heap.length (s.file parent path plugins) := by
          refine ⟨⟨by simp [St.file], hs.sound.add _ hpar hplug, hs.cache, ?_⟩, hs.heap.add hs.sound _ _ _, fun h => by cases h⟩
          have e : (s.file parent path plugins).heap.get s.heap.length = { Sec.fresh parent path with plugins := plugins } :=
            Heap.get_append_eq _ _
          have := FileOf.own (h := (s.file parent path plugins).heap) (i := s.heap.length) (by rw [e]; exact hpath)
          rw [e] at this
          exact this
        have hb := here_body (here_node (k := n) hF hG hinc node ⟨node, hw, Node.self_subs _⟩) hstart
        obtain ⟨h1, h2, _, h4⟩ := hb
        cases hx : evalBody (evalNode W n (incl W n) node) s.heap.length (s.file parent path plugins) with
        | mk r s' =>
          rw [hx] at h1 h2 h4 hrun
          dsimp only at h1 h2 h4 hrun
          obtain ⟨hl, hold⟩ := h2.new
          cases r with
          | ok _ =>
            rw [hrun]
            refine ⟨⟨h1.ok.sound, CacheOk.remember h1.ok.cache _ hw, h1.heap⟩, Nat.le_of_lt hl, hold, (by intro e h; cases h), ?_⟩
            intro c h
            cases h
            exact ⟨rfl, hl⟩
          | err e =>
            rw [hrun]
            exact ⟨⟨h1.ok.sound, h1.ok.cache, h1.heap⟩, Nat.le_of_lt hl, hold, (by intro e h; cases h; exact h4 _ rfl), by intro _ h; cases h⟩
          | panic =>
            rw [hrun]
            exact ⟨⟨h1.ok.sound, h1.ok.cache, h1.heap⟩, Nat.le_of_lt hl, hold, (by intro e h; cases h), by intro _ h; cases h⟩
          | more =>
            rw [hrun]
            exact ⟨⟨h1.ok.sound, h1.ok.cache, h1.heap⟩, Nat.le_of_lt hl, hold, (by intro e h; cases h), by intro _ h; cases h⟩

/-! ### Collection -/

theorem andThen_eq {x y : Option (List Target)} {ts : List Target} (h : andThen x y = some ts) :
    ∃ a b, x = some a ∧ y = some b ∧ ts = a ++ b := by
  rw [andThen.eq_def] at h
  split at h
  · cases h; exact ⟨_, _, rfl, rfl, rfl⟩
  · cases h

/-- The targets collected are parts. -/
def Target.content' (t : Target) : Content := .target t.name t.loc t.title t.content

mutual
theorem targets_mem : ∀ (c : Content) (ts : List Target), targets c = some ts → ∀ t ∈ ts, t.content' ∈ c.parts true
  | .nil, ts, h => by rw [targets] at h; cases h
  | .str _, ts, h => by rw [targets] at h; cases h; simp
  | .seq cs, ts, h => by
    rw [targets] at h; intro t ht; rw [Content.parts]; exact List.mem_cons.2 (.inr (targetsL_mem cs ts h t ht))
  | .para cs, ts, h => by
    rw [targets] at h; intro t ht; rw [Content.parts]; exact List.mem_cons.2 (.inr (targetsL_mem cs ts h t ht))
  | .pre cs, ts, h => by
    rw [targets] at h; intro t ht; rw [Content.parts]; exact List.mem_cons.2 (.inr (targetsL_mem cs ts h t ht))
  | .ref _ _ _ _ _, ts, h => by rw [targets] at h; cases h; simp
  | .sect _, ts, h => by rw [targets] at h; cases h; simp
  | .toc _, ts, h => by rw [targets] at h; cases h; simp
  | .styled _ _ c ps, ts, h => by
    rw [targets] at h
    obtain ⟨a, b, h1, h2, rfl⟩ := andThen_eq h
    intro t ht
    rw [Content.parts]
    refine List.mem_cons.2 (.inr (List.mem_append.2 ?_))
    rcases List.mem_append.1 ht with ht | ht
    · exact .inl (targets_mem c a h1 t ht)
    · exact .inr (targetsP_mem ps b h2 t ht)
  | .target n l ti c, ts, h => by
    rw [targets] at h; cases h
    intro t ht
    rw [List.mem_singleton.1 ht, Content.parts]
    exact List.mem_cons_self
  | .image _ _, ts, h => by rw [targets] at h; cases h; simp
  | .list cs _, ts, h => by
    rw [targets] at h; intro t ht; rw [Content.parts]; exact List.mem_cons.2 (.inr (targetsL_mem cs ts h t ht))
  | .link c _, ts, h => by
    rw [targets] at h; intro t ht; rw [Content.parts]; exact List.mem_cons.2 (.inr (targets_mem c ts h t ht))
  | .table rs, ts, h => by
    rw [targets] at h; intro t ht; rw [Content.parts]; exact List.mem_cons.2 (.inr (targetsR_mem rs ts h t ht))
  | .defs ds, ts, h => by
    rw [targets] at h; intro t ht; rw [Content.parts]; exact List.mem_cons.2 (.inr (targetsD_mem ds ts h t ht))
  | .lazy _ _, ts, h => by rw [targets] at h; cases h; simp
  | .aux c, ts, h => by
    rw [targets] at h; intro t ht; rw [Content.parts]; exact List.mem_cons.2 (.inr (targets_mem c ts h t ht))
theorem targetsL_mem : ∀ (cs : List Content) (ts : List Target), targetsL cs = some ts → ∀ t ∈ ts, t.content' ∈ partsL true cs
  | [], ts, h => by rw [targetsL] at h; cases h; simp
  | c :: cs, ts, h => by
    rw [targetsL] at h
    obtain ⟨a, b, h1, h2, rfl⟩ := andThen_eq h
    intro t ht
    rw [partsL, List.mem_append]
    rcases List.mem_append.1 ht with ht | ht
    · exact .inl (targets_mem c a h1 t ht)
    · exact .inr (targetsL_mem cs b h2 t ht)
theorem targetsP_mem : ∀ (cs : List (Str × Content)) (ts : List Target), targetsP cs = some ts →
    ∀ t ∈ ts, t.content' ∈ partsP true cs
  | [], ts, h => by rw [targetsP] at h; cases h; simp
  | (n, c) :: cs, ts, h => by
    rw [targetsP] at h
    obtain ⟨a, b, h1, h2, rfl⟩ := andThen_eq h
    intro t ht
    rw [partsP, List.mem_append]
    rcases List.mem_append.1 ht with ht | ht
    · split at h1
      · cases h1; cases ht
      · exact .inl (targets_mem c a h1 t ht)
    · exact .inr (targetsP_mem cs b h2 t ht)
theorem targetsR_mem : ∀ (cs : List (List Content)) (ts : List Target), targetsR cs = some ts →
    ∀ t ∈ ts, t.content' ∈ partsR true cs
  | [], ts, h => by rw [targetsR] at h; cases h; simp
  | c :: cs, ts, h => by
    rw [targetsR] at h
    obtain ⟨a, b, h1, h2, rfl⟩ := andThen_eq h
    intro t ht
    rw [partsR, List.mem_append]
    rcases List.mem_append.1 ht with ht | ht
    · exact .inl (targetsL_mem c a h1 t ht)
    · exact .inr (targetsR_mem cs b h2 t ht)
theorem targetsD_mem : ∀ (cs : List (Content × Content)) (ts : List Target), targetsD cs = some ts →
    ∀ t ∈ ts, t.content' ∈ partsD true cs
  | [], ts, h => by rw [targetsD] at h; cases h; simp
  | (c, d) :: cs, ts, h => by
    rw [targetsD] at h
    obtain ⟨a, b, h1, h2, rfl⟩ := andThen_eq h
    obtain ⟨a1, a2, h3, h4, rfl⟩ := andThen_eq h1
    intro t ht
    rw [partsD, List.mem_append, List.mem_append]
    rcases List.mem_append.1 ht with ht | ht
    · rcases List.mem_append.1 ht with ht | ht
      · exact .inl (.inl (targets_mem c a1 h3 t ht))
      · exact .inl (.inr (targets_mem d a2 h4 t ht))
    · exact .inr (targetsD_mem cs b h2 t ht)
end

theorem Sec.targets_mem {x : Sec} {ts : List Target} (h : x.targets = some ts) {t : Target} (ht : t ∈ ts) :
    t.content' ∈ x.title.parts true ∨ t.content' ∈ x.body.parts true ∨ ∃ q ∈ x.partials, t.content' ∈ q.2.parts true := by
  rw [Sec.targets] at h
  obtain ⟨a, b, h1, h2, rfl⟩ := andThen_eq h
  obtain ⟨b1, b2, h3, h4, rfl⟩ := andThen_eq h2
  rcases List.mem_append.1 ht with ht | ht
  · exact .inl (Booklit.targets_mem _ _ h1 t ht)
  · rcases List.mem_append.1 ht with ht | ht
    · exact .inr (.inl (Booklit.targets_mem _ _ h3 t ht))
    · obtain ⟨c, hc, hd⟩ := mem_partsL.1 (targetsL_mem _ _ h4 t ht)
      obtain ⟨q, hq, rfl⟩ := List.mem_map.1 hc
      exact .inr (.inr ⟨q, hq, hd⟩)

mutual
/-- The parts of parts are parts. -/
theorem Content.parts_trans : ∀ (c m : Content), m ∈ c.parts true → ∀ d ∈ m.parts true, d ∈ c.parts true
  | .nil, m, h, d, hd => by rw [Content.parts, List.mem_singleton] at h; rw [h] at hd; exact hd
  | .str _, m, h, d, hd => by rw [Content.parts, List.mem_singleton] at h; rw [h] at hd; exact hd
  | .seq cs, m, h, d, hd => by
    rw [Content.parts] at h
    rcases List.mem_cons.1 h with h | h
    · rw [h] at hd; exact hd
    · rw [Content.parts]; exact List.mem_cons.2 (.inr (partsL_trans cs m h d hd))
  | .para cs, m, h, d, hd => by
    rw [Content.parts] at h
    rcases List.mem_cons.1 h with h | h
    · rw [h] at hd; exact hd
    · rw [Content.parts]; exact List.mem_cons.2 (.inr (partsL_trans cs m h d hd))
  | .pre cs, m, h, d, hd => by
    rw [Content.parts] at h
    rcases List.mem_cons.1 h with h | h
    · rw [h] at hd; exact hd
    · rw [Content.parts]; exact List.mem_cons.2 (.inr (partsL_trans cs m h d hd))
  | .ref _ _ c _ _, m, h, d, hd => by
    rw [Content.parts] at h
    rcases List.mem_cons.1 h with h | h
    · rw [h] at hd; exact hd
    · rw [Content.parts]; exact List.mem_cons.2 (.inr (Content.parts_trans c m h d hd))
  | .sect _, m, h, d, hd => by rw [Content.parts, List.mem_singleton] at h; rw [h] at hd; exact hd
  | .toc _, m, h, d, hd => by rw [Content.parts, List.mem_singleton] at h; rw [h] at hd; exact hd
  | .styled _ _ c ps, m, h, d, hd => by
    rw [Content.parts] at h
    rcases List.mem_cons.1 h with h | h
    · rw [h] at hd; exact hd
    · rw [Content.parts]
      refine List.mem_cons.2 (.inr (List.mem_append.2 ?_))
      rcases List.mem_append.1 h with h | h
      · exact .inl (Content.parts_trans c m h d hd)
      · exact .inr (partsP_trans ps m h d hd)
  | .target _ _ a b, m, h, d, hd => by
    rw [Content.parts] at h
    rcases List.mem_cons.1 h with h | h
    · rw [h] at hd; exact hd
    · rw [Content.parts]
      refine List.mem_cons.2 (.inr (List.mem_append.2 ?_))
      rcases List.mem_append.1 h with h | h
      · exact .inl (Content.parts_trans a m h d hd)
      · exact .inr (Content.parts_trans b m h d hd)
  | .image _ _, m, h, d, hd => by rw [Content.parts, List.mem_singleton] at h; rw [h] at hd; exact hd
  | .list cs _, m, h, d, hd => by
    rw [Content.parts] at h
    rcases List.mem_cons.1 h with h | h
    · rw [h] at hd; exact hd
    · rw [Content.parts]; exact List.mem_cons.2 (.inr (partsL_trans cs m h d hd))
  | .link c _, m, h, d, hd => by
    rw [Content.parts] at h
    rcases List.mem_cons.1 h with h | h
    · rw [h] at hd; exact hd
    · rw [Content.parts]; exact List.mem_cons.2 (.inr (Content.parts_trans c m h d hd))
  | .table rs, m, h, d, hd => by
    rw [Content.parts] at h
    rcases List.mem_cons.1 h with h | h
    · rw [h] at hd; exact hd
    · rw [Content.parts]; exact List.mem_cons.2 (.inr (partsR_trans rs m h d hd))
  | .defs ds, m, h, d, hd => by
    rw [Content.parts] at h
    rcases List.mem_cons.1 h with h | h
    · rw [h] at hd; exact hd
    · rw [Content.parts]; exact List.mem_cons.2 (.inr (partsD_trans ds m h d hd))
  | .lazy _ _, m, h, d, hd => by rw [Content.parts, List.mem_singleton] at h; rw [h] at hd; exact hd
  | .aux c, m, h, d, hd => by
    rw [Content.parts] at h
    rcases List.mem_cons.1 h with h | h
    · rw [h] at hd; exact hd
    · rw [Content.parts]; exact List.mem_cons.2 (.inr (Content.parts_trans c m h d hd))
theorem partsL_trans : ∀ (cs : List Content) (m : Content), m ∈ partsL true cs → ∀ d ∈ m.parts true, d ∈ partsL true cs
  | [], m, h, d, hd => by cases h
  | c :: cs, m, h, d, hd => by
    rw [partsL] at h ⊢
    rcases List.mem_append.1 h with h | h
    · exact List.mem_append.2 (.inl (Content.parts_trans c m h d hd))
    · exact List.mem_append.2 (.inr (partsL_trans cs m h d hd))
theorem partsP_trans : ∀ (cs : List (Str × Content)) (m : Content), m ∈ partsP true cs → ∀ d ∈ m.parts true, d ∈ partsP true cs
  | [], m, h, d, hd => by cases h
  | (n, c) :: cs, m, h, d, hd => by
    rw [partsP] at h ⊢
    rcases List.mem_append.1 h with h | h
    · exact List.mem_append.2 (.inl (Content.parts_trans c m h d hd))
    · exact List.mem_append.2 (.inr (partsP_trans cs m h d hd))
theorem partsR_trans : ∀ (cs : List (List Content)) (m : Content), m ∈ partsR true cs → ∀ d ∈ m.parts true, d ∈ partsR true cs
  | [], m, h, d, hd => by cases h
  | c :: cs, m, h, d, hd => by
    rw [partsR] at h ⊢
    rcases List.mem_append.1 h with h | h
    · exact List.mem_append.2 (.inl (partsL_trans c m h d hd))
    · exact List.mem_append.2 (.inr (partsR_trans cs m h d hd))
theorem partsD_trans : ∀ (cs : List (Content × Content)) (m : Content), m ∈ partsD true cs → ∀ d ∈ m.parts true, d ∈ partsD true cs
  | [], m, h, d, hd => by cases h
  | (a, b) :: cs, m, h, d, hd => by
    rw [partsD] at h ⊢
    rcases List.mem_append.1 h with h | h
    · rcases List.mem_append.1 h with h | h
      · exact List.mem_append.2 (.inl (List.mem_append.2 (.inl (Content.parts_trans a m h d hd))))
      · exact List.mem_append.2 (.inl (List.mem_append.2 (.inr (Content.parts_trans b m h d hd))))
    · exact List.mem_append.2 (.inr (partsD_trans cs m h d hd))
end

theorem target_parts {t : Str} {l : Location} {a b c d : Content} (h : .target t l a b ∈ c.parts true)
    (hd : d ∈ a.parts true ∨ d ∈ b.parts true) : d ∈ c.parts true :=
  Content.parts_trans c _ h d (by rw [Content.parts]; exact List.mem_cons.2 (.inr (by simpa using hd)))

theorem SecFrom.addTargets {h : Heap} (hh : HeapFrom W F h) {i : Nat} {ts : List Target} (hts : (h.get i).targets = some ts) :
    HeapFrom W F (h.addTargets i ts) := by
  intro j p hj hfile
  rw [Heap.length_addTargets] at hj
  have hb : FileOf h j p := hfile.back fun j' => by
    obtain ⟨gs, e⟩ := (MoreTags.addTargets h i ts).2 j'
    rw [e]; exact ⟨rfl, rfl⟩
  have x := hh j p hj hb
  by_cases e : j = i
  · subst e
    rw [Heap.get_addTargets_eq ts h hj]
    refine ⟨x.invoke, x.place, x.title, x.titleLoc, x.body, x.partials, fun g hg => ?_⟩
    rcases List.mem_append.1 hg with hg | hg
    · exact x.tags g hg
    · obtain ⟨t, ht, rfl⟩ := List.mem_map.1 hg
      have key : ∀ c, Origins W F p j c → t.content' ∈ c.parts true →
          (W.Place p t.loc ∨ F (.target t.name t.loc t.title t.content)) ∧ Origins W F p j t.title ∧ Origins W F p j t.content := by
        intro c hc hm
        refine ⟨?_, fun d hd => hc d (target_parts hm (.inl hd)), fun d hd => hc d (target_parts hm (.inr hd))⟩
        have := hc _ hm
        rw [Target.content'] at this
        generalize hx : Content.target t.name t.loc t.title t.content = y at this
        cases this with
        | target _ _ _ hl => injection hx with _ h2 _ _; rw [h2]; exact .inl hl
        | plugin hf => exact .inr hf
        | _ => cases hx
      rcases Sec.targets_mem hts ht with h | h | ⟨q, hq, h⟩
      · exact key _ x.title h
      · exact key _ x.body h
      · exact key _ (x.partials q hq) h
  · rw [Heap.get_addTargets_ne e]; exact x

mutual
theorem HeapFrom.collect : ∀ (n : Nat) (h : Heap) (i : Nat) (h' : Heap), h.collect n i = .ok h' → HeapFrom W F h → HeapFrom W F h'
  | 0, h, i, h', e, _ => by cases e
  | n + 1, h, i, h', e, ha => by
    rw [collect_succ] at e
    split at e
    · cases e
    · next hts => exact HeapFrom.collectAll n _ _ h' e (SecFrom.addTargets ha hts)
theorem HeapFrom.collectAll : ∀ (n : Nat) (cs : List Nat) (h : Heap) (h' : Heap), h.collectAll n cs = .ok h' →
    HeapFrom W F h → HeapFrom W F h'
  | n, [], h, h', e, ha => by cases e; exact ha
  | n, c :: cs, h, h', e, ha => by
    rw [collectAll_cons] at e
    cases hc : h.collect n c with
    | ok h1 =>
      rw [hc] at e
      exact HeapFrom.collectAll n cs h1 h' e (HeapFrom.collect n h c h1 hc ha)
    | err _ => rw [hc] at e; cases e
    | panic => rw [hc] at e; cases e
    | more => rw [hc] at e; cases e
end

mutual
theorem collect_no_err : ∀ (n : Nat) (h : Heap) (i : Nat) (e : Err), h.collect n i ≠ .err e
  | 0, h, i, e => by intro h; cases h
  | n + 1, h, i, e => by
    rw [collect_succ]
    split
    · intro h; cases h
    · exact collectAll_no_err n _ _ e
theorem collectAll_no_err : ∀ (n : Nat) (cs : List Nat) (h : Heap) (e : Err), h.collectAll n cs ≠ .err e
  | n, [], h, e => by intro h; cases h
  | n, c :: cs, h, e => by
    rw [collectAll_cons]
    cases hc : h.collect n c with
    | ok h1 => exact collectAll_no_err n cs h1 e
    | err e' => exact absurd hc (collect_no_err n h c e')
    | panic => intro h; cases h
    | more => intro h; cases h
end

theorem load_from (hF : W.Makes F) (hG : W.Fails G) (hfs : W.fs [] = none) {s : St} (hs : Between W F s) (n : Nat)
    {parent : Option Nat} (path : Str) {plugins : List Nat} (hp : ∀ q, parent = some q → q < s.heap.length)
    (h0 : plugins.head? = some 0) :
    HeapFrom W F (loadFile W n parent path plugins s).2.heap ∧
      ∀ e, (loadFile W n parent path plugins s).1 = .err e → ErrorFrom W G e := by
  have h := here_file hF hG hfs n parent path plugins s hs hp h0
  rw [loadFile_run]
  revert h
  cases evalFile W n parent path plugins s with
  | mk r s' =>
    intro h
    cases r with
    | ok i =>
      dsimp only
      cases hc : s'.heap.collect n i with
      | ok h' => exact ⟨HeapFrom.collect n _ _ _ hc h.state.heap, by intro e h; cases h⟩
      | err e => exact absurd hc (collect_no_err _ _ _ _)
      | panic => exact ⟨h.state.heap, by intro e h; cases h⟩
      | more => exact ⟨h.state.heap, by intro e h; cases h⟩
    | err e => exact ⟨h.state.heap, h.error⟩
    | panic => exact ⟨h.state.heap, by intro e h; cases h⟩
    | more => exact ⟨h.state.heap, by intro e h; cases h⟩

theorem Reach.between (hF : W.Makes F) (hfs : W.fs [] = none) {s : St} (h : Reach W s) : Between W F s := by
  have hh : HeapFrom W F s.heap := by
    induction h with
    | start => intro i p hi; simp at hi
    | load n parent path plugins h hp h0 ih =>
      exact (load_from (G := fun _ => True) hF (fun _ _ _ _ _ _ _ _ _ => trivial) hfs ⟨h.sound, h.cacheOk, ih⟩ n path hp h0).1
  exact ⟨h.sound, h.cacheOk, hh⟩

end Booklit
