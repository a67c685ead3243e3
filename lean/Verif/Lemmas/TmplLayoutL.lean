import Verif.Lemmas.TmplChunksL
import Verif.Model.Engine

/-!
How a template is laid out does not matter (C100).
-/

namespace Booklit.Tmpl

open Booklit

/-- Nodes, and what is left. -/
def SameN (x y : Option (List TNode × Stop × List Chunk)) : Prop :=
  (x = none ∧ y = none) ∨ ∃ ns stop ms c c', x = some (ns, stop, c) ∧ y = some (ns, stop, c') ∧ Cs ms c ∧ Cs ms c'

/-- The same for what follows `else`. -/
def SameE (x y : Option (List TNode × List Chunk)) : Prop :=
  (x = none ∧ y = none) ∨ ∃ ns ms c c', x = some (ns, c) ∧ y = some (ns, c') ∧ Cs ms c ∧ Cs ms c'

theorem SameN.map {x y : Option (List TNode × Stop × List Chunk)} (h : SameN x y) (g : List TNode → List TNode) :
    SameN (x.map fun p => (g p.1, p.2)) (y.map fun p => (g p.1, p.2)) := by
  rcases h with ⟨rfl, rfl⟩ | ⟨ns, stop, ms, c, c', rfl, rfl, h1, h2⟩
  · exact .inl ⟨rfl, rfl⟩
  · exact .inr ⟨_, _, _, _, _, rfl, rfl, h1, h2⟩

/-- What `if`, `with` and `range` do after their pipeline. -/
theorem sameN_branch {fns : List (Str × Fn)} {n : Nat} (ihN : ∀ ms c c', Cs ms c → Cs ms c' → SameN (parseNodes fns n c) (parseNodes fns n c'))
    (ihE : ∀ stop ms c c', Cs ms c → Cs ms c' → SameE (parseElse fns n stop c) (parseElse fns n stop c'))
    {ms : List Mark} {c c' : List Chunk} (h : Cs ms c) (h' : Cs ms c') (g : List TNode → List TNode → TNode) :
    SameN ((parseNodes fns n c).bind fun a => (parseElse fns n a.2.1 a.2.2).bind fun b => (parseNodes fns n b.2).map fun p => (g a.1 b.1 :: p.1, p.2))
      ((parseNodes fns n c').bind fun a => (parseElse fns n a.2.1 a.2.2).bind fun b => (parseNodes fns n b.2).map fun p => (g a.1 b.1 :: p.1, p.2)) := by
  rcases ihN ms c c' h h' with ⟨e, e'⟩ | ⟨ns, stop, ms1, c1, c1', e, e', h1, h1'⟩
  · rw [e, e']; exact .inl ⟨rfl, rfl⟩
  · rw [e, e']
    show SameN ((parseElse fns n stop c1).bind _) ((parseElse fns n stop c1').bind _)
    rcases ihE stop ms1 c1 c1' h1 h1' with ⟨e, e'⟩ | ⟨bs, ms2, c2, c2', e, e', h2, h2'⟩
    · rw [e, e']; exact .inl ⟨rfl, rfl⟩
    · rw [e, e']
      exact (ihN ms2 c2 c2' h2 h2').map (g ns bs :: ·)

theorem sameN_bind {α : Type} (o : Option α) {f f' : α → Option (List TNode × Stop × List Chunk)} (h : ∀ a, SameN (f a) (f' a)) : SameN (o.bind f) (o.bind f') := by
  cases o with
  | none => exact .inl ⟨rfl, rfl⟩
  | some a => exact h a

theorem actNodes_same {fns : List (Str × Fn)} {n : Nat} (ihN : ∀ ms c c', Cs ms c → Cs ms c' → SameN (parseNodes fns n c) (parseNodes fns n c'))
    (ihE : ∀ stop ms c c', Cs ms c → Cs ms c' → SameE (parseElse fns n stop c) (parseElse fns n stop c'))
    {ms : List Mark} {c c' : List Chunk} (h : Cs ms c) (h' : Cs ms c') (ts : List Tok) : SameN (actNodes fns n c ts) (actNodes fns n c' ts) := by
  have one : ∀ (nd : Expr → TNode) (o : Option Expr), SameN (o.bind fun e => (parseNodes fns n c).map fun p => (nd e :: p.1, p.2))
      (o.bind fun e => (parseNodes fns n c').map fun p => (nd e :: p.1, p.2)) := fun nd o =>
    sameN_bind o fun e => (ihN ms c c' h h').map (nd e :: ·)
  unfold actNodes
  split
  · next w rest =>
    split
    · split
      · exact .inr ⟨_, _, _, _, _, rfl, rfl, h, h'⟩
      · exact .inl ⟨rfl, rfl⟩
    · split
      · exact .inr ⟨_, _, _, _, _, rfl, rfl, h, h'⟩
      · split
        · exact sameN_bind _ fun e => sameN_branch ihN ihE h h' fun as bs => .ite e (declared (bound rest).1 e as) (declared (bound rest).1 e bs)
        · split
          · exact sameN_bind _ fun e => sameN_branch ihN ihE h h' fun as bs => .with_ e (declared (bound rest).1 .dot as) (declared (bound rest).1 e bs)
          · split
            · dsimp only
              exact sameN_bind _ fun e => sameN_branch ihN ihE h h' fun as bs => .loop _ _ e as bs
            · split
              · split
                · exact (ihN ms c c' h h').map (_ :: ·)
                · exact one (fun e => .call _ (some e)) _
                · exact .inl ⟨rfl, rfl⟩
              · exact one (.act .plain) _
  · exact one (.decl _) _
  · exact one (.act .plain) _

theorem parse_same {fns : List (Str × Fn)} : ∀ n, (∀ ms c c', Cs ms c → Cs ms c' → SameN (parseNodes fns n c) (parseNodes fns n c')) ∧
    ∀ stop ms c c', Cs ms c → Cs ms c' → SameE (parseElse fns n stop c) (parseElse fns n stop c') := by
  intro n
  induction n with
  | zero =>
    refine ⟨fun ms c c' _ _ => .inl ⟨?_, ?_⟩, fun stop ms c c' _ _ => .inl ⟨?_, ?_⟩⟩
    · rw [parseNodes.eq_def]
    · rw [parseNodes.eq_def]
    · rw [parseElse.eq_def]
    · rw [parseElse.eq_def]
  | succ n ih =>
    obtain ⟨ihN, ihE⟩ := ih
    constructor
    · intro ms c c' h h'
      cases h with
      | nil =>
        cases h'
        rw [parseNodes.eq_def]
        exact .inr ⟨_, _, _, _, _, rfl, rfl, .nil, .nil⟩
      | text h =>
        cases h' with
        | text h' =>
          rw [parseNodes_text, parseNodes_text]
          exact (ihN _ _ _ h h').map (_ :: ·)
      | act hs h =>
        cases h' with
        | act hs' h' =>
          rw [parseNodes_action hs, parseNodes_action hs']
          exact actNodes_same ihN ihE h h' _
    · intro stop ms c c' h h'
      rw [parseElse.eq_def, parseElse.eq_def]
      dsimp only
      split
      · exact .inl ⟨rfl, rfl⟩
      · exact .inr ⟨_, _, _, _, rfl, rfl, h, h'⟩
      · rcases ihN ms c c' h h' with ⟨e, e'⟩ | ⟨ns, stop, ms1, c1, c1', e, e', h1, h1'⟩
        · rw [e, e']; exact .inl ⟨rfl, rfl⟩
        · rw [e, e']
          cases stop with
          | fin => exact .inr ⟨_, _, _, _, rfl, rfl, h1, h1'⟩
          | _ => exact .inl ⟨rfl, rfl⟩
      · next w rest =>
        split
        · cases parseExpr fns (bound rest).2 with
          | none => exact .inl ⟨rfl, rfl⟩
          | some e =>
            show SameE ((parseNodes fns n c).bind _) ((parseNodes fns n c').bind _)
            rcases ihN ms c c' h h' with ⟨e1, e1'⟩ | ⟨ns, stop, ms1, c1, c1', e1, e1', h1, h1'⟩
            · rw [e1, e1']; exact .inl ⟨rfl, rfl⟩
            · rw [e1, e1']
              show SameE ((parseElse fns n stop c1).map _) ((parseElse fns n stop c1').map _)
              rcases ihE stop ms1 c1 c1' h1 h1' with ⟨e, e'⟩ | ⟨bs, ms2, c2, c2', e, e', h2, h2'⟩
              · rw [e, e']; exact .inl ⟨rfl, rfl⟩
              · rw [e, e']
                exact .inr ⟨_, _, _, _, rfl, rfl, h2, h2'⟩
        · exact .inl ⟨rfl, rfl⟩
      · exact .inl ⟨rfl, rfl⟩

theorem parse_layout {fns : List (Str × Fn)} {s s' : Str} {ms : List Mark} (h : Written s ms) (h' : Written s' ms) : parse fns s = parse fns s' := by
  obtain ⟨cs, e, hc⟩ := chunks_written h (s.length + 1) (Nat.le_refl _)
  obtain ⟨cs', e', hc'⟩ := chunks_written h' (s'.length + 1) (Nat.le_refl _)
  rw [parse, parse, e, e']
  show (match parseNodes fns (2 * cs.length + 2) cs with | some (ns, .eof, []) => some ns | _ => none) =
    (match parseNodes fns (2 * cs'.length + 2) cs' with | some (ns, .eof, []) => some ns | _ => none)
  rw [hc.length, hc'.length]
  rcases (parse_same (fns := fns) (2 * ms.length + 2)).1 ms cs cs' hc hc' with ⟨e, e'⟩ | ⟨ns, stop, ms1, c1, c1', e, e', h1, h1'⟩
  · rw [e, e']
  · rw [e, e']
    cases stop with
    | eof =>
      cases h1 with
      | nil => cases h1'; rfl
      | text _ => cases h1'; rfl
      | act _ _ => cases h1'; rfl
    | _ => rfl

end Booklit.Tmpl
