import Verif.Lemmas.EngineL
import Verif.Lemmas.HtmlL
import Verif.Lemmas.UnstyledL

/-!
Executing templates with and without some that are not used.
-/

namespace Booklit.Tmpl

open Templates

/-- The same results, all of them with a property. -/
def Both {α : Type} (P : α → Prop) (a b : Res α) : Prop := a = b ∧ ∀ v, a = .ok v → P v

theorem Both.ok {α : Type} {P : α → Prop} {v : α} (h : P v) : Both P (.ok v) (.ok v) := ⟨rfl, fun _ e => by cases e; exact h⟩

theorem Both.err {α : Type} {P : α → Prop} : Both P (tmplErr : Res α) tmplErr := ⟨rfl, fun _ e => by cases e⟩

theorem Both.any {α : Type} (a : Res α) : Both (fun _ => True) a a := ⟨rfl, fun _ _ => trivial⟩

theorem Both.bind {α β : Type} {P : α → Prop} {Q : β → Prop} {a b : Res α} {f g : α → Res β} (h : Both P a b)
    (hf : ∀ v, P v → Both Q (f v) (g v)) : Both Q (a.bind f) (b.bind g) := by
  obtain ⟨rfl, h⟩ := h
  cases a with
  | ok v => exact hf v (h v rfl)
  | _ => exact ⟨rfl, fun _ e => by cases e⟩

theorem Both.map {α β : Type} {P : α → Prop} {Q : β → Prop} {a b : Res α} {f : α → β} (h : Both P a b)
    (hf : ∀ v, P v → Q (f v)) : Both Q (a.map f) (b.map f) := by
  obtain ⟨rfl, h⟩ := h
  cases a with
  | ok v => exact .ok (hf v (h v rfl))
  | _ => exact ⟨rfl, fun _ e => by cases e⟩

theorem Both.resMap {α β : Type} {f g : α → Res β} {as : List α} (h : ∀ a ∈ as, f a = g a) : resMap f as = resMap g as := by
  induction as with
  | nil => rfl
  | cons a as ih =>
    simp only [Booklit.resMap]
    rw [h a List.mem_cons_self, ih fun b hb => h b (List.mem_cons_of_mem _ hb)]

variable {xs : List Str}

/-- A value in which nothing has one of the styles. -/
inductive Clean (xs : List Str) : Val → Prop
  | null : Clean xs .null
  | bool (b) : Clean xs (.bool b)
  | num (n) : Clean xs (.num n)
  | str (s) : Clean xs (.str s)
  | html (s) : Clean xs (.html s)
  | url (s) : Clean xs (.url s)
  | content {c} : c.unstyled xs = true → Clean xs (.content c)
  | tag {g} : Tag.unstyled xs g → Clean xs (.tag g)
  | defn {a b} : a.unstyled xs = true → b.unstyled xs = true → Clean xs (.defn a b)
  | walk (a b) : Clean xs (.walk a b)
  | list {vs} : (∀ v ∈ vs, Clean xs v) → Clean xs (.list vs)

theorem Clean.contents {cs : List Content} (h : ∀ c ∈ cs, c.unstyled xs = true) : Clean xs (.list (cs.map .content)) :=
  .list fun v hv => by
    obtain ⟨c, hc, rfl⟩ := List.mem_map.1 hv
    exact .content (h c hc)

theorem Clean.tags {gs : List Tag} (h : ∀ g ∈ gs, Tag.unstyled xs g) : Clean xs (.list (gs.map .tag)) :=
  .list fun v hv => by
    obtain ⟨c, hc, rfl⟩ := List.mem_map.1 hv
    exact .tag (h c hc)

theorem unstyled_sect (i : Nat) : (Content.sect i).unstyled xs = true := rfl

theorem Clean.ofSec (i : Option Nat) : Clean xs (.ofSec i) := by
  cases i with
  | none => exact .null
  | some i => exact .content (unstyled_sect i)

theorem Clean.ofTag {g : Option Tag} (h : ∀ a, g = some a → Tag.unstyled xs a) : Clean xs (.ofTag g) := by
  cases g with
  | none => exact .null
  | some g => exact .tag (h g rfl)

theorem allL_mem {p : Content → Bool} {cs : List Content} : allL p cs = true ↔ ∀ c ∈ cs, c.all p = true := by
  induction cs with
  | nil => simp [allL]
  | cons c cs ih => simp [allL, ih]

theorem allP_mem {p : Content → Bool} {cs : List (Str × Content)} : allP p cs = true ↔ ∀ c ∈ cs, c.2.all p = true := by
  induction cs with
  | nil => simp [allP]
  | cons c cs ih => obtain ⟨a, c⟩ := c; simp [allP, ih]

theorem allR_mem {p : Content → Bool} {cs : List (List Content)} : allR p cs = true ↔ ∀ r ∈ cs, ∀ c ∈ r, c.all p = true := by
  induction cs with
  | nil => simp [allR]
  | cons c cs ih => simp [allR, ih, allL_mem]

theorem allD_mem {p : Content → Bool} {cs : List (Content × Content)} :
    allD p cs = true ↔ ∀ c ∈ cs, c.1.all p = true ∧ c.2.all p = true := by
  induction cs with
  | nil => simp [allD]
  | cons c cs ih => obtain ⟨a, c⟩ := c; simp [allD, ih]

theorem bind_not_ok {α β : Type} (a : Res α) {f : α → Res β} {b : β} {P : Prop} (h : ∀ v, f v = .ok b → P) : a.bind f = .ok b → P := by
  cases a with
  | ok v => exact h v
  | _ => intro e; cases e

theorem lookup_pair {ps : List (Str × Content)} {k : Str} {c : Content} (e : ps.lookup k = some c) : (k, c) ∈ ps := by
  induction ps with
  | nil => cases e
  | cons p ps ih =>
    obtain ⟨a, d⟩ := p
    rw [List.lookup_cons] at e
    by_cases ha : k == a
    · simp only [ha] at e; cases e
      rw [eq_of_beq ha]; exact List.mem_cons_self
    · simp only [ha] at e
      exact List.mem_cons_of_mem _ (ih e)

theorem partialIn_clean {ps : List (Str × Content)} (hp : ∀ p ∈ ps, p.2.all (Content.notStyle xs) = true) (name : Str) :
    (partialIn ps name).unstyled xs = true := by
  unfold partialIn
  split
  · rename_i p e
    exact hp p (List.mem_of_find?_eq_some e)
  · rfl

section
variable {S : Site} {h : Heap} (U : Unstyled xs S h)
include U

theorem tagOf_clean {n s t o l g} (e : Heap.tagOf S h n s t o l = .ok (some g)) : g.unstyled xs := by
  unfold Heap.tagOf at e
  split at e
  · cases e
  · rename_i g' hg
    cases e
    rcases refTag_mem (T := fun _ => True) (fun _ _ _ _ => trivial) (fun _ _ _ _ => trivial) trivial hg with ⟨j, _, hj⟩ | ⟨_, rfl⟩
    · exact U.tags j _ hj
    · exact ⟨rfl, rfl⟩
  · cases e
  · unfold Heap.unknownTag at e
    revert e
    refine bind_not_ok _ fun p => bind_not_ok _ fun gs => ?_
    simp
  · unfold Heap.ambiguousTag at e
    revert e
    refine bind_not_ok _ fun p => bind_not_ok _ fun gs => ?_
    simp

theorem partialOf_clean (i name) : ((h.get i).partialOf name).unstyled xs = true := by
  unfold Sec.partialOf
  split
  · rename_i c hc
    exact U.partials i _ (lookup_pair hc)
  · rfl

theorem secField_both {M : Mode} {n : Nat} {f g : Task → Res Str} (i fl args) :
    Both (Clean xs) (secField (envOf M S h n f) i fl args) (secField (envOf M S h n g) i fl args) := by
  unfold secField
  split <;> first
    | exact .err
    | exact .ok (.content (U.title i))
    | exact .ok (.content (U.body i))
    | exact .ok (.tag (U.primary i))
    | exact .ok (.tags (U.tags i))
    | exact .ok (.tags fun g hg => U.tags i g (List.mem_filter.1 hg).1)
    | exact .ok (.ofSec _)
    | exact .ok (.str _)
    | exact .ok (.bool _)
    | exact .ok (.content (partialOf_clean U i _))
    | exact (Both.any _).map fun _ _ => .str _
    | exact (Both.any _).map fun _ _ => .num _
    | exact (Both.any _).map fun _ _ => .bool _
    | exact (Both.any _).map fun _ _ => .ofSec _
    | exact (Both.any _).map fun _ _ => .content rfl
    | exact .ok (.list fun v hv => by obtain ⟨c, _, rfl⟩ := List.mem_map.1 hv; exact .content rfl)

omit U in
theorem anyField_both {M : Mode} {n : Nat} {f g : Task → Res Str} (c fl args) :
    Both (Clean xs) (anyField (envOf M S h n f) c fl args) (anyField (envOf M S h n g) c fl args) := by
  unfold anyField
  split <;> first
    | exact .err
    | exact (Both.any _).map fun _ _ => .str _
    | (split <;> first
        | exact .err
        | exact .ok (.bool _))

theorem conField_both {M : Mode} {n : Nat} {f g : Task → Res Str} (c fl args) (hc : c.unstyled xs = true) :
    Both (Clean xs) (conField (envOf M S h n f) c fl args) (conField (envOf M S h n g) c fl args) := by
  unfold conField
  have tg : ∀ s t o l, Both (fun a => ∀ g, a = some g → Tag.unstyled xs g) (Heap.tagOf S h n s t o l) (Heap.tagOf S h n s t o l) :=
    fun s t o l => ⟨rfl, fun v e g hg => tagOf_clean U (by rw [e, hg])⟩
  split <;> (try simp only [Content.unstyled, Content.all, Bool.and_eq_true, allL_mem, allR_mem, allD_mem, allP_mem] at hc) <;> first
    | exact .err
    | exact secField_both U _ _ _
    | exact anyField_both _ _ _
    | exact .ok (.str _)
    | exact .ok (.bool _)
    | exact .ok (.content rfl)
    | exact (tg _ _ _ _).map fun _ h => .ofTag h
    | exact .ok (.contents hc.2)
    | exact .ok (.content hc.2)
    | exact .ok (.content hc.1.2)
    | exact .ok (.content (partialIn_clean hc.2 _))
    | exact .ok (.list fun v hv => by obtain ⟨r, hr, rfl⟩ := List.mem_map.1 hv; exact .contents (hc.2 r hr))
    | skip
  split
  · refine (tg _ _ _ _).bind fun v hv => ?_
    cases v with
    | none => exact .err
    | some g => exact .ok (.content (hv g rfl).1)
  · exact .ok (.content hc.2)

theorem field_both {M : Mode} {n : Nat} {f g : Task → Res Str} (v fl args) (hv : Clean xs v) :
    Both (Clean xs) (Val.field (envOf M S h n f) v fl args) (Val.field (envOf M S h n g) v fl args) := by
  unfold Val.field
  cases hv with
  | content hc => exact conField_both U _ _ _ hc
  | tag hg =>
    dsimp only
    unfold tagField
    split <;> first
      | exact .err
      | exact .ok (.str _)
      | exact .ok (.ofSec _)
      | exact .ok (.content hg.1)
      | exact .ok (.content hg.2)
  | defn ha hb =>
    dsimp only
    split
    · exact .ok (.content ha)
    · exact .ok (.content hb)
    · exact .err
  | walk a b =>
    dsimp only
    split
    · exact .ok (.ofSec _)
    · exact .ok (.ofSec _)
    · exact .err
  | _ => exact .err

end

/-- Two ways to execute that agree where nothing has one of the styles. -/
def Agree (xs : List Str) (f g : Task → Res Str) : Prop :=
  (∀ c, c.unstyled xs = true → f (.content c) = g (.content c)) ∧
    ∀ file v, (∀ x ∈ xs, file ≠ fileOf x) → Clean xs v → f (.template file v) = g (.template file v)

theorem foldl_clean {b : Val → Val → Val} (hb : ∀ u v, Clean xs u → Clean xs v → Clean xs (b u v)) :
    ∀ (vs : List Val) v, Clean xs v → (∀ u ∈ vs, Clean xs u) → Clean xs (vs.foldl b v) := by
  intro vs
  induction vs with
  | nil => intro v hv _; exact hv
  | cons u vs ih =>
    intro v hv h
    exact ih _ (hb _ _ hv (h u List.mem_cons_self)) fun w hw => h w (List.mem_cons_of_mem _ hw)

theorem apply_both {M : Mode} {S : Site} {h : Heap} {n : Nat} {f g : Task → Res Str} (A : Agree xs f g) (fn args)
    (ha : ∀ v ∈ args, Clean xs v) : Both (Clean xs) (Fn.apply (envOf M S h n f) fn args) (Fn.apply (envOf M S h n g) fn args) := by
  unfold Fn.apply
  split <;> first
    | exact .err
    | exact .ok (.str _)
    | exact .ok (.bool _)
    | exact (Both.any _).map fun _ _ => .str _
    | exact (Both.any _).map fun _ _ => .html _
    | exact (Both.any _).map fun _ _ => .url _
    | exact (Both.any _).map fun _ _ => .num _
    | skip
  · rename_i c
    have hc : c.unstyled xs = true := by cases ha _ List.mem_cons_self; assumption
    refine Both.map (P := fun _ => True) ⟨A.1 c hc, fun _ _ => trivial⟩ fun s _ => ?_
    split
    · exact .html s
    · exact .str s
  · rename_i c
    have hc : c.unstyled xs = true := by cases ha _ List.mem_cons_self; assumption
    split
    · exact .err
    · rename_i d hd
      exact .ok (.content (strip_unstyled c hc d hd))
  · split
    · exact .ok (.walk _ _)
    · exact .err
  · refine .ok (foldl_clean (fun u v hu hv => ?_) _ _ (ha _ List.mem_cons_self) fun w hw => ha w (List.mem_cons_of_mem _ hw))
    split <;> assumption
  · refine .ok (foldl_clean (fun u v hu hv => ?_) _ _ (ha _ List.mem_cons_self) fun w hw => ha w (List.mem_cons_of_mem _ hw))
    split <;> assumption
  · unfold Val.same
    split <;> first
      | exact .ok (.bool _)
      | exact .err

section
variable {M : Mode} {S : Site} {h : Heap} (U : Unstyled xs S h) {n : Nat} {f g : Task → Res Str} (A : Agree xs f g)
include U A

mutual
theorem eval_both {root dot : Val} {vars : Vars} (hr : Clean xs root) (hd : Clean xs dot) (hv : ∀ p ∈ vars, Clean xs p.2) :
    ∀ e, Both (Clean xs) (eval (envOf M S h n f) root dot vars e) (eval (envOf M S h n g) root dot vars e)
  | .dot => by simp only [eval]; exact .ok hd
  | .root => by simp only [eval]; exact .ok hr
  | .var x => by
    simp only [eval, Vars.find]
    split
    · rename_i p hp
      exact .ok (hv p (List.mem_of_find?_eq_some hp))
    · exact .err
  | .str s => by simp only [eval]; exact .ok (.str s)
  | .num k => by simp only [eval]; exact .ok (.num k)
  | .field e fl args => by
    simp only [eval]
    exact (eval_both hr hd hv e).bind fun v hv' => (evalL_both hr hd hv args).bind fun vs _ => field_both U v fl vs hv'
  | .call fn args => by
    rw [eval_call, eval_call]
    refine Both.bind (P := fun vs => ∀ v ∈ vs, Clean xs v) ?_ fun vs hvs => apply_both A fn vs hvs
    unfold evalGiven
    split
    · exact evalTo_both hr hd hv false args
    · exact evalTo_both hr hd hv true args
    · exact evalL_both hr hd hv args
theorem evalTo_both {root dot : Val} {vars : Vars} (hr : Clean xs root) (hd : Clean xs dot) (hv : ∀ p ∈ vars, Clean xs p.2) (b : Bool) :
    ∀ es, Both (fun vs => ∀ v ∈ vs, Clean xs v) (evalTo (envOf M S h n f) root dot vars b es) (evalTo (envOf M S h n g) root dot vars b es)
  | [] => by simp only [evalTo]; exact .ok (by simp)
  | e :: es => by
    simp only [evalTo]
    refine (eval_both hr hd hv e).bind fun v h1 => ?_
    split
    · exact .ok (by simpa using h1)
    · exact (evalTo_both hr hd hv b es).map fun vs h2 => by simpa using ⟨h1, h2⟩
theorem evalL_both {root dot : Val} {vars : Vars} (hr : Clean xs root) (hd : Clean xs dot) (hv : ∀ p ∈ vars, Clean xs p.2) :
    ∀ es, Both (fun vs => ∀ v ∈ vs, Clean xs v) (evalL (envOf M S h n f) root dot vars es) (evalL (envOf M S h n g) root dot vars es)
  | [] => by simp only [evalL]; exact .ok (by simp)
  | e :: es => by
    simp only [evalL]
    exact (eval_both hr hd hv e).bind fun v h1 => (evalL_both hr hd hv es).map fun vs h2 => by
      simpa using ⟨h1, h2⟩
end

omit U A in
theorem escape_both (c : Ctx) (v : Val) : c.escape (envOf M S h n f) v = c.escape (envOf M S h n g) v := rfl

omit U A in
theorem indexed_snd {α : Type} {k : Nat} {as : List α} {p : Nat × α} (hp : p ∈ indexed k as) : p.2 ∈ as := by
  induction as generalizing k with
  | nil => cases hp
  | cons a as ih =>
    rw [indexed, List.mem_cons] at hp
    rcases hp with rfl | hp
    · exact List.mem_cons_self
    · exact List.mem_cons_of_mem _ (ih hp)

omit U A in
theorem items_clean {v : Val} (hv : Clean xs v) {vs : List Val} (e : v.items = some vs) : ∀ u ∈ vs, Clean xs u := by
  have C : ∀ cs : List Content, (∀ c ∈ cs, c.unstyled xs = true) → ∀ u ∈ cs.map Val.content, Clean xs u := by
    intro cs hcs u hu
    obtain ⟨c, hc, rfl⟩ := List.mem_map.1 hu
    exact .content (hcs c hc)
  unfold Val.items at e
  split at e <;> cases e
  · cases hv; assumption
  · cases hv with | content hc =>
      simp only [Content.unstyled, Content.all, Bool.and_eq_true, allL_mem] at hc; exact C _ hc.2
  · cases hv with | content hc =>
      simp only [Content.unstyled, Content.all, Bool.and_eq_true, allL_mem] at hc; exact C _ hc.2
  · cases hv with | content hc =>
      simp only [Content.unstyled, Content.all, Bool.and_eq_true, allL_mem] at hc; exact C _ hc.2
  · cases hv with | content hc =>
      simp only [Content.unstyled, Content.all, Bool.and_eq_true, allD_mem] at hc
      intro u hu
      obtain ⟨c, hc', rfl⟩ := List.mem_map.1 hu
      exact .defn (hc.2 c hc').1 (hc.2 c hc').2
  · simp

omit U A in
theorem with_clean {vars : Vars} (hv : ∀ p ∈ vars, Clean xs p.2) (x : Option Str) {v : Val} (h : Clean xs v) :
    ∀ p ∈ vars.with x v, Clean xs p.2 := by
  cases x with
  | none => exact hv
  | some x => intro p hp; rcases List.mem_cons.1 hp with rfl | hp
              · exact h
              · exact hv p hp

mutual
theorem execL_both {root dot : Val} {vars : Vars} (hr : Clean xs root) (hd : Clean xs dot) (hv : ∀ p ∈ vars, Clean xs p.2) :
    ∀ ns, (∀ x ∈ xs, fileOf x ∉ callsL ns) → execL (envOf M S h n f) root dot vars ns = execL (envOf M S h n g) root dot vars ns
  | [] => fun _ => by simp only [execL]
  | nd :: ns => fun hc => by
    have hc1 : ∀ x ∈ xs, fileOf x ∉ nd.calls := fun x hx m => hc x hx (by rw [callsL]; exact List.mem_append_left _ m)
    have hc2 : ∀ x ∈ xs, fileOf x ∉ callsL ns := fun x hx m => hc x hx (by rw [callsL]; exact List.mem_append_right _ m)
    by_cases hx : ∃ x e, nd = .decl x e
    · obtain ⟨x, e, rfl⟩ := hx
      simp only [execL]
      refine (Both.bind (Q := fun _ => True) (eval_both U A hr hd hv e) fun v h1 => ⟨execL_both hr hd ?_ ns hc2, fun _ _ => trivial⟩).1
      exact with_clean hv (some x) h1
    · rw [execL, execL, exec_both hr hd hv nd hc1, execL_both hr hd hv ns hc2]
      · exact fun x e he => hx ⟨x, e, he⟩
      · exact fun x e he => hx ⟨x, e, he⟩
theorem exec_both {root dot : Val} {vars : Vars} (hr : Clean xs root) (hd : Clean xs dot) (hv : ∀ p ∈ vars, Clean xs p.2) :
    ∀ nd : TNode, (∀ x ∈ xs, fileOf x ∉ nd.calls) → exec (envOf M S h n f) root dot vars nd = exec (envOf M S h n g) root dot vars nd
  | .text _ => fun _ => by simp only [exec]
  | .decl _ _ => fun _ => by simp only [exec]
  | .act c e => fun _ => by
    simp only [exec]
    exact (Both.bind (Q := fun _ => True) (eval_both U A hr hd hv e) fun v h1 => ⟨rfl, fun _ _ => trivial⟩).1
  | .ite e a b => fun hc => by
    simp only [exec]
    have h1 : ∀ x ∈ xs, fileOf x ∉ callsL a := fun x hx m => hc x hx (by rw [TNode.calls]; exact List.mem_append_left _ m)
    have h2 : ∀ x ∈ xs, fileOf x ∉ callsL b := fun x hx m => hc x hx (by rw [TNode.calls]; exact List.mem_append_right _ m)
    refine (Both.bind (Q := fun _ => True) (eval_both U A hr hd hv e) fun v hw => ⟨?_, fun _ _ => trivial⟩).1
    rw [execL_both hr hd hv a h1, execL_both hr hd hv b h2]
  | .with_ e a b => fun hc => by
    simp only [exec]
    have h1 : ∀ x ∈ xs, fileOf x ∉ callsL a := fun x hx m => hc x hx (by rw [TNode.calls]; exact List.mem_append_left _ m)
    have h2 : ∀ x ∈ xs, fileOf x ∉ callsL b := fun x hx m => hc x hx (by rw [TNode.calls]; exact List.mem_append_right _ m)
    refine (Both.bind (Q := fun _ => True) (eval_both U A hr hd hv e) fun v hw => ⟨?_, fun _ _ => trivial⟩).1
    rw [execL_both hr hw hv a h1, execL_both hr hd hv b h2]
  | .loop i x e a b => fun hc => by
    simp only [exec]
    have h1 : ∀ x ∈ xs, fileOf x ∉ callsL a := fun x hx m => hc x hx (by rw [TNode.calls]; exact List.mem_append_left _ m)
    have h2 : ∀ x ∈ xs, fileOf x ∉ callsL b := fun x hx m => hc x hx (by rw [TNode.calls]; exact List.mem_append_right _ m)
    refine (Both.bind (Q := fun _ => True) (eval_both U A hr hd hv e) fun v hw => ⟨?_, fun _ _ => trivial⟩).1
    split
    · rfl
    · exact execL_both hr hd hv b h2
    · rename_i vs _ hvs
      congr 1
      refine Both.resMap fun p hp => ?_
      have := items_clean hw hvs _ (indexed_snd hp)
      exact execL_both hr this (with_clean (with_clean hv i (.num _)) x this) a h1
  | .call name none => fun hc => by
    simp only [exec]
    exact A.2 name .null (fun x hx e => hc x hx (by simp [TNode.calls, e])) .null
  | .call name (some e) => fun hc => by
    simp only [exec]
    refine (Both.bind (Q := fun _ => True) (eval_both U A hr hd hv e) fun v hw => ⟨?_, fun _ _ => trivial⟩).1
    exact A.2 name v (fun x hx e => hc x hx (by simp [TNode.calls, e])) hw
end

end

theorem fileOf_inj {a b : Str} (e : a ++ q%".tmpl" = fileOf b) : a = b := List.append_cancel_right e

theorem visit_clean {S : Site} {h : Heap} (U : Unstyled xs S h) (hk : ∀ x ∈ xs, x ∉ kindNames) (c : Content)
    (hc : c.unstyled xs = true) {name v} (e : Content.visit h c = .template name v) : name ∉ xs ∧ Clean xs v := by
  induction c using Content.ind with
  | nil => cases e
  | lazy => cases e
  | aux c ih =>
    simp only [Content.unstyled, Content.all, Bool.and_eq_true] at hc
    exact ih hc.2 e
  | sect i =>
    cases e
    refine ⟨?_, .content rfl⟩
    split
    · exact fun m => hk _ m (by decide)
    · exact U.style i
  | styled st b c ps =>
    cases e
    refine ⟨?_, .content hc⟩
    simp only [Content.unstyled, Content.all, Bool.and_eq_true, Content.notStyle, decide_eq_true_eq] at hc
    exact hc.1.1
  | toc i =>
    cases e
    exact ⟨fun m => hk _ m (by decide), .content rfl⟩
  | _ =>
    cases e
    exact ⟨fun m => hk _ m (by decide), .content hc⟩

theorem visit_force {S : Site} {h : Heap} (U : Unstyled xs S h) {i : Nat} {d} (e : S.force i = some d) : d.unstyled xs = true :=
  U.force i d e

theorem run_agree {M : Mode} {T T' : Compiled} {S : Site} {h : Heap} (U : Unstyled xs S h) (hk : ∀ x ∈ xs, x ∉ kindNames)
    (hT : ∀ file, (∀ x ∈ xs, file ≠ fileOf x) → T file = T' file)
    (hc : ∀ file ns, (∀ x ∈ xs, file ≠ fileOf x) → T file = some ns → ∀ x ∈ xs, fileOf x ∉ callsL ns) :
    ∀ n, Agree xs (run M T S h n) (run M T' S h n) := by
  intro n
  induction n with
  | zero => exact ⟨fun _ _ => rfl, fun _ _ _ _ => rfl⟩
  | succ n ih =>
    refine ⟨fun c hu => ?_, fun file v hf hv => ?_⟩
    · simp only [run]
      split
      · rfl
      · split
        · rfl
        · rename_i d hd
          exact ih.1 d (U.force _ d hd)
      · rename_i name v e
        obtain ⟨h1, h2⟩ := visit_clean U hk c hu e
        exact ih.2 _ v (fun x hx e => h1 (fileOf_inj e ▸ hx)) h2
    · simp only [run, ← hT file hf]
      split
      · rfl
      · rename_i ns e
        exact execL_both U ih hv hv (by simp) ns (hc file ns hf e)

end Booklit.Tmpl
