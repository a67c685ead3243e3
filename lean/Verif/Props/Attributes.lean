import Verif.Model.Engine

/-!
C87 and C100: names of attributes and of functions in templates.
-/

namespace Booklit.Props

open Booklit Booklit.Tmpl

theorem within_mid (w : Str) (hw : w ≠ []) (v : Str) : ∀ u : Str, within w (u ++ w ++ v) = true := by
  intro u
  have pre : ∀ (a b : Str), a.isPrefixOf (a ++ b) = true := by
    intro a b
    rw [List.isPrefixOf_iff_prefix]
    exact List.prefix_append a b
  induction u with
  | nil =>
    cases w with
    | nil => exact absurd rfl hw
    | cons c w =>
      have : (c :: w).isPrefixOf (c :: (w ++ v)) = true := pre (c :: w) v
      simp only [within, List.nil_append, List.cons_append, breakOn, this, if_true, Option.isSome]
  | cons c u ih =>
    simp only [within, List.cons_append, breakOn] at ih ⊢
    split
    · rfl
    · cases hb : breakOn w (u ++ w ++ v) with
      | none => rw [hb] at ih; cases ih
      | some p => rfl

/-- Values can be put there only as an address, or not at all. -/
def Guarded (name : Str) : Prop := kindOf name = .url ∨ ∀ e q p, (Ctx.value e (kindOf name) q p).open_ = false

theorem guarded_of (name : Str) (h : kindOf name ≠ .plain) : Guarded name := by
  cases hk : kindOf name with
  | url => exact .inl hk
  | plain => exact absurd hk h
  | css => right; intro e q p; rw [hk]; rfl
  | script => right; intro e q p; rw [hk]; rfl

/-- **C87**: an attribute that has `src`, `uri` or `url` in its name, with or without `data-` before it, is taken to be an address, even if it is none that
HTML knows: values put there are checked like addresses, or the template is refused. The only exception is `srclang`, which is a language. -/
theorem C87_like_address {u w v : Str} (hw : w = q%"src" ∨ w = q%"uri" ∨ w = q%"url") (hc : ':' ∉ u ++ w ++ v ∧ '-' ∉ u ++ w ++ v)
    (hn : u ++ w ++ v ≠ q%"srclang") : Guarded (u ++ w ++ v) ∧ Guarded (q%"data-" ++ (u ++ w ++ v)) := by
  have hin : (within q%"src" (u ++ w ++ v) || within q%"uri" (u ++ w ++ v) || within q%"url" (u ++ w ++ v)) = true := by
    rcases hw with rfl | rfl | rfl <;> rw [within_mid _ (by decide)] <;> simp
  have hx : q%"xmlns:".isPrefixOf (u ++ w ++ v) = false := by
    cases hp : q%"xmlns:".isPrefixOf (u ++ w ++ v) with
    | false => rfl
    | true =>
      obtain ⟨r, e⟩ := List.isPrefixOf_iff_prefix.1 hp
      exact absurd (e ▸ List.mem_append_left r (by decide : ':' ∈ q%"xmlns:")) hc.1
  have hd : q%"data-".isPrefixOf (u ++ w ++ v) = false := by
    cases hp : q%"data-".isPrefixOf (u ++ w ++ v) with
    | false => rfl
    | true =>
      obtain ⟨r, e⟩ := List.isPrefixOf_iff_prefix.1 hp
      exact absurd (e ▸ List.mem_append_left r (by decide : '-' ∈ q%"data-")) hc.2
  generalize u ++ w ++ v = name at *
  have hco : name.contains ':' = false := by simpa using hc.1
  constructor
  · refine guarded_of _ ?_
    unfold kindOf
    simp only [hx, hd, hco, Bool.false_eq_true, if_false, hn, hin, if_true]
    split
    · intro h; cases h
    · split
      · intro h; cases h
      · split <;> intro h <;> cases h
  · refine guarded_of _ ?_
    have h1 : q%"xmlns:".isPrefixOf (q%"data-" ++ name) = false := rfl
    have h2 : q%"data-".isPrefixOf (q%"data-" ++ name) = true := by
      rw [List.isPrefixOf_iff_prefix]; exact List.prefix_append _ _
    have h3 : (q%"data-" ++ name).drop 5 = name := rfl
    unfold kindOf
    simp only [h1, h2, h3, Bool.false_eq_true, if_false, if_true, hn, hin]
    split
    · intro h; cases h
    · split
      · intro h; cases h
      · split <;> intro h <;> cases h

example : Guarded q%"imgsrcx" ∧ Guarded q%"data-imgsrcx" :=
  C87_like_address (u := q%"img") (w := q%"src") (v := q%"x") (.inl rfl) (by decide) (by decide)

/-- Attributes that decide what others mean, what is sent, or what runs: those for which html/template lets no name be put in. -/
def deciders : List Str :=
  [q%"accept-charset", q%"async", q%"challenge", q%"charset", q%"content", q%"crossorigin", q%"defer", q%"enctype", q%"form", q%"formenctype",
   q%"formmethod", q%"formnovalidate", q%"http-equiv", q%"keytype", q%"language", q%"method", q%"novalidate", q%"pattern", q%"rel", q%"sandbox",
   q%"type", q%"value", q%"href", q%"src", q%"action", q%"style", q%"onclick"]

/-- **C87**: where a name is put in, it is one of letters and digits, in lower case, and none that decides what others mean; otherwise there
is a word without meaning. -/
theorem C87_names (s : Str) : nameFilter s = q%"ZgotmplZ" ∨
    (nameFilter s = s.map lowChar ∧ (nameFilter s).all (fun c => ('a' ≤ c && c ≤ 'z') || isDigit c) ∧ nameFilter s ∉ deciders) := by
  rw [nameFilter]
  split
  · rename_i h
    refine .inr ⟨rfl, h.2.1, fun hm => ?_⟩
    have key : ∀ d ∈ deciders, kindOf d ≠ .plain ∨ d ∈ unsafeAttrs := by decide
    rcases key _ hm with k | k
    · exact k h.2.2.1
    · exact h.2.2.2 k
  · exact .inl rfl

example : nameFilter q%"H2" = q%"h2" ∧ nameFilter q%"Enctype" = q%"ZgotmplZ" ∧ nameFilter q%"a b" = q%"ZgotmplZ" := by decide

/-- **C100**: the functions of each engine and, of those that all templates have, `and`, `or`, `not` and `eq` are there under their names. A template that
uses another of those that all templates have, such as `len` or `printf`, is outside of the model: it counts as one that cannot be parsed. -/
theorem C100_functions (name : Str) :
    (name ∈ htmlFns.map (·.1) ↔ name ∈ [q%"render", q%"url", q%"stripAux", q%"rawHTML", q%"rawURL", q%"walkContext", q%"headerDepth", q%"and", q%"or", q%"not", q%"eq"]) ∧
    (name ∈ textFns.map (·.1) ↔ name ∈ [q%"render", q%"url", q%"stripAux", q%"htmlURL", q%"joinLines", q%"and", q%"or", q%"not", q%"eq"]) := by
  constructor
  · rfl
  · have h1 : ∀ n ∈ textFns.map (·.1), n ∈ [q%"render", q%"url", q%"stripAux", q%"htmlURL", q%"joinLines", q%"and", q%"or", q%"not", q%"eq"] := by decide
    have h2 : ∀ n ∈ [q%"render", q%"url", q%"stripAux", q%"htmlURL", q%"joinLines", q%"and", q%"or", q%"not", q%"eq"], n ∈ textFns.map (·.1) := by decide
    exact ⟨h1 name, h2 name⟩

/-- The functions that leave out what html/template would check are the ones with `raw` in their names. -/
theorem C100_raw (name : Str) (f : Fn) (h : (name, f) ∈ htmlFns) : (f = .rawHTML ∨ f = .rawURL) ↔ q%"raw".isPrefixOf name := by
  have key : ∀ p ∈ htmlFns, (p.2 = .rawHTML ∨ p.2 = .rawURL) ↔ q%"raw".isPrefixOf p.1 := by decide
  exact key _ h

example : (q%"rawURL", Fn.rawURL) ∈ htmlFns := by decide

end Booklit.Props
