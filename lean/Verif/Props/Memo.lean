import Verif.Model.Memo
import Verif.Lemmas.FuelL
import Verif.Props.Section

/-!
C22 for references that remember their tags.
-/

namespace Booklit.Props

open Booklit

theorem memo_refTag {h : Heap} {r : RefObj} (hr : r.memo = none) (n : Nat) (b : Bool) :
    (r.tag h n b).map (·.1) = h.refTag n b r.sec r.name r.optional r.loc ∧
    ∀ x r', r.tag h n b = some (x, r') → r' = r ∨ ∃ t, x = .tag t ∧ r' = { r with memo := some t } ∧
      h.refTag n b r.sec r.name r.optional r.loc = some (.tag t) ∧ ∀ b', h.refTag n b' r.sec r.name r.optional r.loc = some (.tag t) := by
  rw [RefObj.tag, hr]
  dsimp only
  unfold RefObj.resolve Heap.refTag Heap.resolve
  cases h.findTag n r.sec r.name with
  | none => exact ⟨rfl, fun x r' e => by cases e⟩
  | some l =>
    match l with
    | [] =>
      cases ho : r.optional <;> cases b <;> simp [ho, hr] <;> (intros; simp_all)
    | [t] =>
      refine ⟨by cases b <;> rfl, fun x r' e => .inr ⟨t, ?_⟩⟩
      have : (Resolved.tag t, ({ r with memo := some t } : RefObj)) = (x, r') := by
        cases b <;> exact Option.some.inj e
      cases this
      exact ⟨rfl, rfl, by cases b <;> rfl, fun b' => by cases b' <;> rfl⟩
    | t :: t' :: l =>
      cases b <;> simp <;> (intros; simp_all)

/-- **C22**: while the sections stay as they are, a reference object can be asked for its tag any number of times, and it always
gives the answer of a reference that remembers nothing. -/
theorem C22_remembered (h : Heap) (i : Nat) (name : Str) (optional : Bool) (loc : Location) (cs : List (Nat × Bool)) (k : Nat) (c : Nat × Bool)
    (hc : cs[k]? = some c) {x : Resolved} (hx : h.refTag c.1 c.2 i name optional loc = some x) :
    ((⟨i, name, optional, loc, none⟩ : RefObj).calls h cs)[k]? = some (some x) := by
  have key : ∀ (cs : List (Nat × Bool)) (m : Option Tag), (∀ t, m = some t → ∃ n, ∀ b, h.refTag n b i name optional loc = some (.tag t)) →
      ∀ (k : Nat) (c : Nat × Bool), cs[k]? = some c → ∀ x, h.refTag c.1 c.2 i name optional loc = some x →
        ((⟨i, name, optional, loc, m⟩ : RefObj).calls h cs)[k]? = some (some x) := by
    intro cs
    induction cs with
    | nil => intro m _ k c hc; simp at hc
    | cons d cs ih =>
      intro m hm k c hc x hx
      obtain ⟨n, b⟩ := d
      cases m with
      | some t =>
        have e : (⟨i, name, optional, loc, some t⟩ : RefObj).tag h n b = some (.tag t, ⟨i, name, optional, loc, some t⟩) := rfl
        rw [RefObj.calls, e]
        cases k with
        | zero =>
          cases hc
          obtain ⟨n', hn'⟩ := hm t rfl
          have h1 := refTag_mono (Nat.le_max_left n n') hx
          have h2 := refTag_mono (Nat.le_max_right n n') (hn' b)
          rw [h1] at h2
          cases h2
          rfl
        | succ k => exact ih (some t) hm k c hc x hx
      | none =>
        obtain ⟨h1, h2⟩ := memo_refTag (h := h) (r := ⟨i, name, optional, loc, none⟩) rfl n b
        rw [RefObj.calls]
        cases e : (⟨i, name, optional, loc, none⟩ : RefObj).tag h n b with
        | none =>
          rw [e] at h1
          cases k with
          | zero =>
            cases hc
            have h1' : none = h.refTag n b i name optional loc := h1
            rw [hx] at h1'
            cases h1'
          | succ k => exact ih none hm k c hc x hx
        | some p =>
          obtain ⟨y, r'⟩ := p
          rw [e] at h1
          have h1' : some y = h.refTag n b i name optional loc := h1
          cases k with
          | zero =>
            cases hc
            rw [hx] at h1'
            cases h1'
            rfl
          | succ k =>
            rcases h2 y r' e with rfl | ⟨t, -, rfl, -, ht⟩
            · exact ih none hm k c hc x hx
            · exact ih (some t) (fun t' e => by cases e; exact ⟨n, ht⟩) k c hc x hx
  exact key cs none (fun t e => by cases e) k c hc x hx

/-- A tag that is remembered, and one that is not there. -/
example : ((⟨2, q%"f", false, Location.zero, none⟩ : RefObj).calls sampleHeap [(0, false), (9, false), (0, false), (9, true)]).map
      (fun x => match x with | some (.tag t) => some t.name | _ => none) = [none, some q%"f", some q%"f", some q%"f"] ∧
    ((⟨2, q%"zz", false, Location.zero, none⟩ : RefObj).calls sampleHeap [(9, true), (9, false)]).map
      (fun x => match x with | some (.tag t) => some t.anchor | some .unknown => some q%"?" | _ => none) = [some q%"broken", some q%"?"] := by
  decide +kernel

/-- **What is remembered can be out of date**: a reference that is resolved while the book is still being loaded keeps the tag that it had then, even if
the name is ambiguous in the end. -/
theorem C22_out_of_date : let r : RefObj := ⟨1, q%"dup", false, Location.zero, none⟩
    let early : Heap := [sampleSec q%"a" none [] true, { sampleSec q%"b" (some 0) [] false with tags := [] }]
    (match r.tag early 9 false with
      | some (.tag t, r') => t.name == q%"dup" &&
        (match r'.tag sampleHeap 9 false, r.tag sampleHeap 9 false with
          | some (.tag t', _), some (.ambiguous _, _) => t'.name == q%"dup"
          | _, _ => false)
      | _ => false) = true := by
  decide +kernel

end Booklit.Props
