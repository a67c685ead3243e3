import Verif.Lemmas.OriginL
import Verif.Props.Errors
import Verif.Props.Safe

/-!
Where errors (C63) and contents (C64) come from.
-/

namespace Booklit.Props

open Booklit

/-- A call that a file has stands in its text. -/
theorem call_in {W : World} {p fn : Str} {args : List Node} {l : Location} (h : W.Has p (.invoke fn args l)) : W.CallIn p fn l := by
  obtain ⟨t, ⟨info, hf, hp⟩, hm⟩ := h
  rw [parseFile] at hp
  cases hd : info.data with
  | none => rw [hd] at hp; cases hp
  | some d =>
    rw [hd] at hp
    dsimp only at hp
    cases ho : Peg.parseDoc d with
    | none => rw [ho] at hp; cases hp
    | some o =>
      rw [ho] at hp
      cases o with
      | err _ => cases hp
      | panic _ => cases hp
      | ok v =>
        cases v with
        | node n => cases hp; exact ⟨info, d, hf, hd, C07_call_locations d _ ho fn args l hm⟩
        | _ => cases hp

theorem place_in {W : World} {p : Str} {l : Location} (h : W.Place p l) : ∃ fn, W.CallIn p fn l := by
  obtain ⟨fn, args, h⟩ := h
  exact ⟨fn, call_in h⟩

/-- **C63 (errors)**: whatever has been loaded before, an error of loading that has a place tells the truth: a parse error
is at the place where that file stops to parse; an unknown function is called at that place of that file; a failed
function is called at the place told, and the error inside, which has no place itself, is of the same kind; both places
of a second title are calls in the file. Errors made by other plugins (`G`) are passed on or get the place of the call. -/
theorem C63_error_places {W : World} {F : Content → Prop} {G : Err → Prop} (hF : W.Makes F) (hG : W.Fails G) (hfs : W.fs [] = none)
    {s : St} (hr : Reach W s) (n : Nat) {parent : Option Nat} (path : Str) {plugins : List Nat}
    (hp : ∀ q, parent = some q → q < s.heap.length) (h0 : plugins.head? = some 0) {e : Err} {s' : St}
    (he : loadFile W n parent path plugins s = (.err e, s')) : ErrorFrom W G e :=
  (load_from hF hG hfs (hr.between hF hfs) n path hp h0).2 e (by rw [he])

/-- The same about the texts of the files: the function named by the error is written at the place told, and for a second
title there are calls at both places. -/
theorem C63_error_text {W : World} {F : Content → Prop} {G : Err → Prop} (hF : W.Makes F) (hG : W.Fails G) (hfs : W.fs [] = none)
    {s : St} (hr : Reach W s) (n : Nat) {parent : Option Nat} (path : Str) {plugins : List Nat}
    (hp : ∀ q, parent = some q → q < s.heap.length) (h0 : plugins.head? = some 0) {e : Err} {s' : St}
    (he : loadFile W n parent path plugins s = (.err e, s')) (hg : ¬ G e) :
    (∀ fn q l, e = .undefined fn q l → W.CallIn q fn l) ∧
    (∀ fn x q l, e = .failed fn x q l → W.CallIn q fn l ∧ x.pretty = false) ∧
    (∀ q l l', e = .titleTwice q l l' → (∃ fn, W.CallIn q fn l) ∧ ∃ fn, W.CallIn q fn l') ∧
    (∀ q l, e = .parse q l → ∃ info d, W.fs q = some info ∧ info.data = some d ∧ Peg.parseDoc d = some (.err l)) := by
  cases C63_error_places hF hG hfs hr n path hp h0 he with
  | plain _ => exact ⟨(by intro _ _ _ h; cases h), (by intro _ _ _ _ h; cases h), (by intro _ _ _ h; cases h), (by intro _ _ h; cases h)⟩
  | parse h1 h2 h3 =>
    exact ⟨(by intro _ _ _ h; cases h), (by intro _ _ _ _ h; cases h), (by intro _ _ _ h; cases h),
      (by intro _ _ h; cases h; exact ⟨_, _, h1, h2, h3⟩)⟩
  | undefined h =>
    exact ⟨(by intro _ _ _ e; cases e; exact call_in h), (by intro _ _ _ _ h; cases h), (by intro _ _ _ h; cases h),
      (by intro _ _ h; cases h)⟩
  | failed h _ hx =>
    exact ⟨(by intro _ _ _ h; cases h), (by intro _ _ _ _ e; cases e; exact ⟨call_in h, hx⟩), (by intro _ _ _ h; cases h),
      (by intro _ _ h; cases h)⟩
  | titleTwice h1 h2 =>
    exact ⟨(by intro _ _ _ h; cases h), (by intro _ _ _ _ h; cases h), (by intro _ _ _ e; cases e; exact ⟨place_in h1, place_in h2⟩),
      (by intro _ _ h; cases h)⟩
  | plugin h => exact absurd h hg

/-- **C63 (places)**: the places kept in sections are calls in the file of the section: where an inline section is, where the
title is, where a tag, a reference or a target is. -/
theorem C63_places {W : World} {F : Content → Prop} (hF : W.Makes F) (hfs : W.fs [] = none) {s : St} (hr : Reach W s)
    {i : Nat} {p : Str} (hi : i < s.heap.length) (hp : FileOf s.heap i p) :
    ((s.heap.get i).loc = Location.zero ∨ ∃ fn, W.CallIn p fn (s.heap.get i).loc) ∧
    ((s.heap.get i).title.isEmpty = false → ∃ fn, W.CallIn p fn (s.heap.get i).titleLoc) ∧
    (∀ g ∈ (s.heap.get i).tags, (∃ fn, W.CallIn p fn g.loc) ∨ F (.target g.name g.loc g.title g.content)) ∧
    (∀ c ∈ (s.heap.get i).contents, ∀ d ∈ c.parts true,
      (∀ j t x o l, d = .ref j t x o l → (∃ fn, W.CallIn p fn l) ∨ F d) ∧
      (∀ t l a b, d = .target t l a b → (∃ fn, W.CallIn p fn l) ∨ F d)) := by
  have x := (hr.between hF hfs).heap i p hi hp
  refine ⟨x.place.imp id place_in, fun ht => ?_, fun g hg => (x.tags g hg).1.imp place_in id, fun c hc d hd => ?_⟩
  · rcases x.titleLoc with h | h
    · rw [h] at ht; cases ht
    · exact place_in h
  · have ho : Origin W F p i d := by
      simp only [Sec.contents, List.mem_cons, List.mem_map] at hc
      rcases hc with rfl | rfl | ⟨q, hq, rfl⟩
      · exact x.title d hd
      · exact x.body d hd
      · exact x.partials q hq d hd
    refine ⟨?_, ?_⟩
    · rintro j t y o l rfl
      cases ho with
      | ref _ _ _ hl => exact .inl (place_in hl)
      | plugin h => exact .inr h
    · rintro t l a b rfl
      cases ho with
      | target _ _ _ hl => exact .inl (place_in hl)
      | plugin h => exact .inr h

/-- **C64**: every part of every content of every section (title, body and partials, and titles and contents of tags) has
its origin in the file of that section. -/
theorem C64_origin {W : World} {F : Content → Prop} (hF : W.Makes F) (hfs : W.fs [] = none) {s : St} (hr : Reach W s)
    {i : Nat} {p : Str} (hi : i < s.heap.length) (hp : FileOf s.heap i p) :
    (∀ c ∈ (s.heap.get i).contents, ∀ d ∈ c.parts true, Origin W F p i d) ∧
    ∀ g ∈ (s.heap.get i).tags, ∀ c, c = g.title ∨ c = g.content → ∀ d ∈ c.parts true, Origin W F p i d := by
  have x := (hr.between hF hfs).heap i p hi hp
  refine ⟨fun c hc => ?_, fun g hg c hc => ?_⟩
  · simp only [Sec.contents, List.mem_cons, List.mem_map] at hc
    rcases hc with rfl | rfl | ⟨q, hq, rfl⟩
    · exact x.title
    · exact x.body
    · exact x.partials q hq
  · rcases hc with rfl | rfl
    · exact (x.tags g hg).2.1
    · exact (x.tags g hg).2.2

/-- Texts are written in the file: as text, or as the name of a target without a title. -/
theorem C64_text {W : World} {F : Content → Prop} (hF : W.Makes F) (hfs : W.fs [] = none) {s : St} (hr : Reach W s)
    {i : Nat} {p : Str} (hi : i < s.heap.length) (hp : FileOf s.heap i p) {c : Content} (hc : c ∈ (s.heap.get i).contents) {t : Str}
    (ht : .str t ∈ c.parts true) (hn : t ≠ []) :
    W.Has p (.str t) ∨ F (.str t) ∨
      ∃ fn a as l, W.Has p (.invoke fn (a :: as) l) ∧ methodName fn = q%"Target" ∧ a.gives t := by
  cases (C64_origin hF hfs hr hi hp).1 c hc _ ht with
  | empty => exact absurd rfl hn
  | text h => exact .inl h
  | name h1 h2 h3 => exact .inr (.inr ⟨_, _, _, _, h1, h2, h3⟩)
  | plugin h => exact .inr (.inl h)

/-- A reference is one that is written in the file, to the same tag, and looks for it from the section it is in. -/
theorem C64_reference {W : World} {F : Content → Prop} (hF : W.Makes F) (hfs : W.fs [] = none) {s : St} (hr : Reach W s)
    {i : Nat} {p : Str} (hi : i < s.heap.length) (hp : FileOf s.heap i p) {c : Content} (hc : c ∈ (s.heap.get i).contents)
    {j : Nat} {t : Str} {x : Content} {o : Bool} {l : Location} (ht : .ref j t x o l ∈ c.parts true) (hn : ¬ F (.ref j t x o l)) :
    j = i ∧ o = false ∧ ∃ fn a as l, W.Has p (.invoke fn (a :: as) l) ∧ methodName fn = q%"Reference" ∧ a.gives t := by
  cases (C64_origin hF hfs hr hi hp).1 c hc _ ht with
  | ref h1 h2 h3 _ => exact ⟨rfl, rfl, _, _, _, _, h1, h2, h3⟩
  | plugin h => exact absurd h hn

/-- A link goes where the second argument of a `\link` in the file says. -/
theorem C64_link {W : World} {F : Content → Prop} (hF : W.Makes F) (hfs : W.fs [] = none) {s : St} (hr : Reach W s)
    {i : Nat} {p : Str} (hi : i < s.heap.length) (hp : FileOf s.heap i p) {c : Content} (hc : c ∈ (s.heap.get i).contents)
    {x : Content} {u : Str} (ht : .link x u ∈ c.parts true) (hn : ¬ F (.link x u)) :
    ∃ fn args l b, W.Has p (.invoke fn args l) ∧ methodName fn = q%"Link" ∧ args[1]? = some b ∧ b.gives u := by
  cases (C64_origin hF hfs hr hi hp).1 c hc _ ht with
  | link h1 h2 h3 => obtain ⟨b, h3, h4⟩ := h3; exact ⟨_, _, _, b, h1, h2, h3, h4⟩
  | plugin h => exact absurd h hn

/-! ### Cases -/

/-- What the plugin of `oneFile` makes. -/
def oneMakes (c : Content) : Prop :=
  c = .nil ∨ c = .str q%"hi" ∨ c = .str q%"not italic" ∨ ∃ i l, c = .ref i [] .nil false l

theorem oneFile_makes (text : Str) : (oneFile text).Makes oneMakes := by
  intro q name f hf h i args c hc d hd
  refine .inl ?_
  simp only [oneFile] at hf
  split at hf
  · split at hf
    · cases hf
      rcases hc with hc | hc <;> cases hc
      simp only [Content.parts, List.mem_singleton] at hd
      exact .inr (.inl hd)
    · split at hf
      · cases hf
        rcases hc with hc | hc <;> cases hc
        simp only [Content.parts, List.mem_singleton] at hd
        exact .inr (.inr (.inl hd))
      · split at hf
        · cases hf
          rcases hc with hc | hc <;> cases hc
          simp only [Content.parts, if_true, List.mem_cons, List.not_mem_nil, or_false] at hd
          rcases hd with hd | hd
          · exact .inr (.inr (.inr ⟨_, _, hd⟩))
          · exact .inl hd
        · split at hf
          · cases hf; rcases hc with hc | hc <;> cases hc
          · cases hf
  · cases hf

theorem oneFile_fails (text : Str) : (oneFile text).Fails (fun e => e = .plain q%"bad") := by
  intro q name f hf h i args e he
  simp only [oneFile] at hf
  split at hf
  · split at hf
    · cases hf; rcases he with he | ⟨c, he⟩ <;> cases he
    · split at hf
      · cases hf; rcases he with he | ⟨c, he⟩ <;> cases he
      · split at hf
        · cases hf; rcases he with he | ⟨c, he⟩ <;> cases he
        · split at hf
          · cases hf; rcases he with he | ⟨c, he⟩ <;> cases he; rfl
          · cases hf
  · cases hf

theorem loadText_reach (text : Str) : Reach (oneFile text) (loadText text).2 :=
  .load 5 none q%"x.lit" [0] .start (by simp) rfl

/-- The theorems at work on a document with a plugin: the reference to `b` is found, with its place in the text. -/
example : okAnd (loadText q%"\\title{T}{b}\n\nSee \\bold{\\reference{b}} and \\use-plugin{p}\\hi.") (fun i s =>
    ((s.heap.get i).body.parts true).any fun
      | .ref j t _ _ l => j == i && t == q%"b" && l == ⟨3, 11, 24⟩
      | _ => false) = true := by decide +kernel

example {text : Str} {i : Nat} {s : St} (h : loadText text = (.ok i, s)) (hi : i < s.heap.length) (hp : FileOf s.heap i q%"x.lit")
    {c : Content} (hc : c ∈ (s.heap.get i).contents) {t : Str} (ht : .str t ∈ c.parts true) (hn : t ≠ []) :
    (oneFile text).Has q%"x.lit" (.str t) ∨ oneMakes (.str t) ∨
      ∃ fn a as l, (oneFile text).Has q%"x.lit" (.invoke fn (a :: as) l) ∧ methodName fn = q%"Target" ∧ a.gives t := by
  refine C64_text (oneFile_makes _) rfl ?_ hi hp hc ht hn
  have := loadText_reach text
  rwa [h] at this

/-- Errors with places: a plugin that fails inside a section, and an unknown function. -/
example : errorIs q%"a\n\n\\use-plugin{p}\\section{x \\bad}" (fun
    | .failed fn (.plain w) p l => fn == q%"bad" && w == q%"bad" && p == q%"x.lit" && l == ⟨3, 26, 28⟩
    | _ => false) = true := by decide +kernel

example : errorIs q%"a\n\\title{A}\\bold{\\nope}" (fun
    | .undefined fn p l => fn == q%"nope" && p == q%"x.lit" && l == ⟨2, 16, 17⟩
    | _ => false) = true := by decide +kernel

/-- So the text of the file has the function at the place. -/
example {text fn : Str} {s : St} {l : Location} (h : loadText text = (.err (.undefined fn q%"x.lit" l), s)) :
    (oneFile text).CallIn q%"x.lit" fn l :=
  (C63_error_text (oneFile_makes _) (oneFile_fails _) rfl .start 5 q%"x.lit" (by simp) rfl h (by intro h; cases h)).1 _ _ _ rfl

end Booklit.Props
