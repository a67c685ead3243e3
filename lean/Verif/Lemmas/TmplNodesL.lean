import Verif.Lemmas.TmplTextL

/-!
Templates are read as they are written (C100): nodes.
-/

namespace Booklit.Tmpl

open Booklit

mutual
theorem toks_clean : ∀ (o : Op), Tok.declare ∉ o.toks ∧ Tok.comma ∉ o.toks
  | .dot | .fields _ _ | .var _ _ | .str _ | .num _ | .bool _ | .fn _ => by simp [Op.toks]
  | .paren cs fs => by
    have := pipe_clean cs
    simp [Op.toks, this]
theorem ops_clean : ∀ (os : List Op), Tok.declare ∉ opsToks os ∧ Tok.comma ∉ opsToks os
  | [] => by simp [opsToks]
  | o :: os => by
    have h1 := toks_clean o
    have h2 := ops_clean os
    simp [opsToks, h1, h2]
theorem pipe_clean : ∀ (cs : List (List Op)), Tok.declare ∉ pipeToks cs ∧ Tok.comma ∉ pipeToks cs
  | [] => by simp [pipeToks]
  | [c] => by simpa [pipeToks] using ops_clean c
  | c :: d :: cs => by
    have h1 := ops_clean c
    have h2 := pipe_clean (d :: cs)
    rw [pipeToks]
    · simp [h1, h2]
    · simp
end

theorem bound_bind (x : Option Str) (p : List (List Op)) : bound (bindToks x ++ pipeToks p) = (x, pipeToks p) := by
  cases x with
  | some x => rfl
  | none =>
    have h := (pipe_clean p).1
    show bound (pipeToks p) = _
    unfold bound
    split
    · next heq => rw [heq] at h; simp at h
    · rfl

/-- Pieces of a template for texts and actions. -/
inductive Cs : List Mark → List Chunk → Prop
  | nil : Cs [] []
  | text {s : Str} {ms : List Mark} {cs : List Chunk} : Cs ms cs → Cs (.text s :: ms) (.text s :: cs)
  | act {s : Str} {ts : List Tok} {ms : List Mark} {cs : List Chunk} : Spells s ts → Cs ms cs → Cs (.act ts :: ms) (.action s :: cs)

theorem Cs.split {m1 m2 : List Mark} : ∀ {cs : List Chunk}, Cs (m1 ++ m2) cs → ∃ c1 c2, cs = c1 ++ c2 ∧ Cs m1 c1 ∧ Cs m2 c2 := by
  induction m1 with
  | nil => intro cs h; exact ⟨[], cs, rfl, .nil, h⟩
  | cons m m1 ih =>
    intro cs h
    cases h with
    | text h =>
      obtain ⟨c1, c2, rfl, h1, h2⟩ := ih h
      exact ⟨_ :: c1, c2, rfl, .text h1, h2⟩
    | act hs h =>
      obtain ⟨c1, c2, rfl, h1, h2⟩ := ih h
      exact ⟨_ :: c1, c2, rfl, .act hs h1, h2⟩

/-- What an action does. -/
def actNodes (fns : List (Str × Fn)) (n : Nat) (cs : List Chunk) (ts : List Tok) : Option (List TNode × Stop × List Chunk) :=
  match ts with
  | .ident w :: rest =>
    if w = q%"end" then (if rest = [] then some ([], .fin, cs) else none)
    else if w = q%"else" then some ([], .other rest, cs)
    else if w = q%"if" then
      (parseExpr fns (bound rest).2).bind fun e => (parseNodes fns n cs).bind fun a =>
        (parseElse fns n a.2.1 a.2.2).bind fun b =>
          (parseNodes fns n b.2).map fun p =>
            (.ite e (declared (bound rest).1 e a.1) (declared (bound rest).1 e b.1) :: p.1, p.2)
    else if w = q%"with" then
      (parseExpr fns (bound rest).2).bind fun e => (parseNodes fns n cs).bind fun a =>
        (parseElse fns n a.2.1 a.2.2).bind fun b =>
          (parseNodes fns n b.2).map fun p =>
            (.with_ e (declared (bound rest).1 .dot a.1) (declared (bound rest).1 e b.1) :: p.1, p.2)
    else if w = q%"range" then
      let r : Option Str × Option Str × List Tok :=
        match rest with
        | .var i [] :: .comma :: .var x [] :: .declare :: ts => (some i, some x, ts)
        | .var x [] :: .declare :: ts => (none, some x, ts)
        | ts => (none, none, ts)
      (parseExpr fns r.2.2).bind fun e => (parseNodes fns n cs).bind fun a =>
        (parseElse fns n a.2.1 a.2.2).bind fun b =>
          (parseNodes fns n b.2).map fun p => (.loop r.1 r.2.1 e a.1 b.1 :: p.1, p.2)
    else if w = q%"template" then
      match rest with
      | [.str name] => (parseNodes fns n cs).map fun p => (.call name none :: p.1, p.2)
      | .str name :: ts =>
        (parseExpr fns ts).bind fun e => (parseNodes fns n cs).map fun p => (.call name (some e) :: p.1, p.2)
      | _ => none
    else (parseExpr fns ts).bind fun e => (parseNodes fns n cs).map fun p => (.act .plain e :: p.1, p.2)
  | .var x [] :: .declare :: rest =>
    (parseExpr fns rest).bind fun e => (parseNodes fns n cs).map fun p => (.decl x e :: p.1, p.2)
  | ts => (parseExpr fns ts).bind fun e => (parseNodes fns n cs).map fun p => (.act .plain e :: p.1, p.2)

theorem parseNodes_action {fns : List (Str × Fn)} {n : Nat} {s : Str} {ts : List Tok} (h : Spells s ts) (cs : List Chunk) :
    parseNodes fns (n + 1) (.action s :: cs) = actNodes fns n cs ts := by
  rw [parseNodes.eq_def]
  dsimp only
  rw [tokens_spells h _ (by omega)]
  rfl

theorem parseNodes_text {fns : List (Str × Fn)} {n : Nat} {s : Str} (cs : List Chunk) :
    parseNodes fns (n + 1) (.text s :: cs) = (parseNodes fns n cs).map fun p => (.text s :: p.1, p.2) := by
  rw [parseNodes.eq_def]

theorem declared_bind (x : Option Str) (e : Expr) (ns : List TNode) : declared x e ns = bindNode x e ++ ns := by cases x <;> rfl

theorem Alt.marks_pos (b : Alt) : 1 ≤ b.marks.length := by cases b <;> simp [Alt.marks]

theorem Cs.length {ms : List Mark} {cs : List Chunk} (h : Cs ms cs) : cs.length = ms.length := by
  induction h <;> simp_all

theorem means_of {fns : List (Str × Fn)} {p : List (List Op)} {e : Expr} (h : pipeMeans' fns p = some e) : parseExpr fns (pipeToks p) = some e := by
  unfold pipeMeans' at h
  split at h
  · next hok => exact parseExpr_pipe hok h
  · cases h

theorem pipe_ne {p : List (List Op)} (h : pipeOk p = true) : ∃ t ts, pipeToks p = t :: ts := by
  rcases p with _ | ⟨_ | ⟨o, os⟩, cs⟩
  · cases h
  · cases cs <;> simp [pipeOk] at h
  · cases ho : o.toks with
    | nil => have := toks_pos o; rw [ho] at this; simp at this
    | cons t ts => cases cs <;> exact ⟨t, _, by simp [pipeToks, opsToks, ho]; rfl⟩

/-- A pipeline by itself. -/
theorem act_plain {fns : List (Str × Fn)} {p : List (List Op)} {e : Expr} (h : pipeMeans' fns p = some e) (hp : plain p = true) (n : Nat) (cs : List Chunk) :
    actNodes fns n cs (pipeToks p) = (parseNodes fns n cs).map fun q => (.act .plain e :: q.1, q.2) := by
  have he := means_of h
  have hc := (pipe_clean p).1
  have hw : ∀ w rest, pipeToks p = .ident w :: rest → keywords.contains w = false := by
    intro w rest hw
    rcases p with _ | ⟨_ | ⟨o, os⟩, cs⟩
    · cases hw
    · unfold pipeMeans' at h
      cases cs <;> simp [pipeOk] at h
    · have : ∃ l, o.toks ++ l = .ident w :: rest := by
        cases cs with
        | nil => exact ⟨opsToks os, by rw [← hw]; simp [pipeToks, opsToks]⟩
        | cons c cs => exact ⟨opsToks os ++ .pipe :: pipeToks (c :: cs), by rw [← hw]; simp [pipeToks, opsToks]⟩
      obtain ⟨l, hl⟩ := this
      cases o with
      | fn f =>
        simp only [Op.toks, List.cons_append, List.nil_append, List.cons.injEq, Tok.ident.injEq] at hl
        rw [← hl.1]
        simpa [plain] using hp
      | bool b =>
        simp only [Op.toks, List.cons_append, List.nil_append, List.cons.injEq, Tok.ident.injEq] at hl
        rw [← hl.1]
        cases b <;> decide
      | _ => simp [Op.toks] at hl
  unfold actNodes
  split
  · next w rest heq =>
    have := hw w rest heq
    simp only [keywords, List.contains_cons, List.contains_nil, Bool.or_false, Bool.or_eq_false_iff, beq_eq_false_iff_ne] at this
    obtain ⟨k1, k2, k3, k4, k5, k6⟩ := this
    rw [if_neg k1, if_neg k2, if_neg k3, if_neg k4, if_neg k5, if_neg k6, he]
    rfl
  · next heq => rw [heq] at hc; simp at hc
  · rw [he]; rfl

theorem loop_toks (x : Option (Option Str × Str)) (p : List (List Op)) :
    (match loopToks x ++ pipeToks p with
      | .var i [] :: .comma :: .var x [] :: .declare :: ts => (some i, some x, ts)
      | .var x [] :: .declare :: ts => (none, some x, ts)
      | ts => (none, none, ts) : Option Str × Option Str × List Tok) = (x.bind (·.1), x.map (·.2), pipeToks p) := by
  have hc := pipe_clean p
  rcases x with _ | ⟨_ | i, x⟩
  · show (match pipeToks p with
      | .var i [] :: .comma :: .var x [] :: .declare :: ts => (some i, some x, ts)
      | .var x [] :: .declare :: ts => (none, some x, ts)
      | ts => (none, none, ts) : Option Str × Option Str × List Tok) = _
    split
    · next heq => rw [heq] at hc; simp at hc
    · next heq => rw [heq] at hc; simp at hc
    · rfl
  · rfl
  · rfl

mutual
theorem parse_tm {fns : List (Str × Fn)} : ∀ (t : Tm) {nd : TNode}, t.node fns = some nd → ∀ {c1 : List Chunk}, Cs t.marks c1 → ∀ (n : Nat) (c2 : List Chunk),
    c1.length ≤ n → parseNodes fns (n + 1) (c1 ++ c2) = (parseNodes fns n c2).map fun p => (nd :: p.1, p.2)
  | .text s, nd, h, c1, hc, n, c2, _ => by
    rw [Tm.node] at h
    cases h
    rw [Tm.marks] at hc
    cases hc with
    | text h => cases h; exact parseNodes_text _
  | .act p, nd, h, c1, hc, n, c2, _ => by
    rw [Tm.node] at h
    split at h
    · next hp =>
      obtain ⟨e, he, rfl⟩ := Option.map_eq_some_iff.1 h
      rw [Tm.marks] at hc
      cases hc with
      | act hs h =>
        cases h
        show parseNodes fns (n + 1) (_ :: c2) = _
        rw [parseNodes_action hs, act_plain he hp]
    · cases h
  | .decl x p, nd, h, c1, hc, n, c2, _ => by
    rw [Tm.node] at h
    obtain ⟨e, he, rfl⟩ := Option.map_eq_some_iff.1 h
    rw [Tm.marks] at hc
    cases hc with
    | act hs h =>
      cases h
      show parseNodes fns (n + 1) (_ :: c2) = _
      rw [parseNodes_action hs]
      show (parseExpr fns (pipeToks p)).bind _ = _
      rw [means_of he]
      rfl
  | .call name none, nd, h, c1, hc, n, c2, _ => by
    rw [Tm.node] at h
    cases h
    rw [Tm.marks] at hc
    cases hc with
    | act hs h =>
      cases h
      show parseNodes fns (n + 1) (_ :: c2) = _
      rw [parseNodes_action hs]
      rfl
  | .call name (some p), nd, h, c1, hc, n, c2, _ => by
    rw [Tm.node] at h
    obtain ⟨e, he, rfl⟩ := Option.map_eq_some_iff.1 h
    rw [Tm.marks] at hc
    cases hc with
    | act hs h =>
      cases h
      show parseNodes fns (n + 1) (_ :: c2) = _
      rw [parseNodes_action hs]
      have hok : pipeOk p = true := by
        unfold pipeMeans' at he
        split at he
        · assumption
        · cases he
      obtain ⟨t, ts, hp⟩ := pipe_ne hok
      have := means_of he
      rw [hp] at this ⊢
      show (parseExpr fns (t :: ts)).bind _ = _
      rw [this]
      rfl
  | .ite x p a b, nd, h, c1, hc, n, c2, hn => by
    rw [Tm.node] at h
    obtain ⟨e, he, h⟩ := Option.bind_eq_some_iff.1 h
    obtain ⟨as, has, h⟩ := Option.bind_eq_some_iff.1 h
    obtain ⟨bs, hbs, rfl⟩ := Option.map_eq_some_iff.1 h
    rw [Tm.marks] at hc
    cases hc with
    | act hs hc =>
      obtain ⟨ca, cb, rfl, hca, hcb⟩ := hc.split
      obtain ⟨stop, rest, h1, h2⟩ := parse_alt b hbs hcb c2
      have hb := b.marks_pos
      have hl := hcb.length
      simp only [List.length_cons, List.length_append] at hn
      show parseNodes fns (n + 1) (_ :: (ca ++ cb ++ c2)) = _
      rw [parseNodes_action hs]
      show (parseExpr fns (bound (bindToks x ++ pipeToks p)).2).bind _ = _
      rw [bound_bind, means_of he]
      show (parseNodes fns n (ca ++ cb ++ c2)).bind _ = _
      rw [List.append_assoc, parse_tms a has hca (cb ++ c2) h1 n (by omega)]
      show (parseElse fns n stop rest).bind _ = _
      rw [h2 n (by omega)]
      simp only [declared_bind, show bound ((bindToks x).append (pipeToks p)) = (x, pipeToks p) from bound_bind x p]
      rfl
  | .with_ x p a b, nd, h, c1, hc, n, c2, hn => by
    rw [Tm.node] at h
    obtain ⟨e, he, h⟩ := Option.bind_eq_some_iff.1 h
    obtain ⟨as, has, h⟩ := Option.bind_eq_some_iff.1 h
    obtain ⟨bs, hbs, rfl⟩ := Option.map_eq_some_iff.1 h
    rw [Tm.marks] at hc
    cases hc with
    | act hs hc =>
      obtain ⟨ca, cb, rfl, hca, hcb⟩ := hc.split
      obtain ⟨stop, rest, h1, h2⟩ := parse_alt b hbs hcb c2
      have hb := b.marks_pos
      have hl := hcb.length
      simp only [List.length_cons, List.length_append] at hn
      show parseNodes fns (n + 1) (_ :: (ca ++ cb ++ c2)) = _
      rw [parseNodes_action hs]
      show (parseExpr fns (bound (bindToks x ++ pipeToks p)).2).bind _ = _
      rw [bound_bind, means_of he]
      show (parseNodes fns n (ca ++ cb ++ c2)).bind _ = _
      rw [List.append_assoc, parse_tms a has hca (cb ++ c2) h1 n (by omega)]
      show (parseElse fns n stop rest).bind _ = _
      rw [h2 n (by omega)]
      simp only [declared_bind, show bound ((bindToks x).append (pipeToks p)) = (x, pipeToks p) from bound_bind x p]
      rfl
  | .loop x p a b, nd, h, c1, hc, n, c2, hn => by
    rw [Tm.node] at h
    obtain ⟨e, he, h⟩ := Option.bind_eq_some_iff.1 h
    obtain ⟨as, has, h⟩ := Option.bind_eq_some_iff.1 h
    obtain ⟨bs, hbs, rfl⟩ := Option.map_eq_some_iff.1 h
    rw [Tm.marks] at hc
    cases hc with
    | act hs hc =>
      obtain ⟨ca, cb, rfl, hca, hcb⟩ := hc.split
      obtain ⟨stop, rest, h1, h2⟩ := parse_alt b hbs hcb c2
      have hb := b.marks_pos
      have hl := hcb.length
      simp only [List.length_cons, List.length_append] at hn
      show parseNodes fns (n + 1) (_ :: (ca ++ cb ++ c2)) = _
      rw [parseNodes_action hs]
      have hr := loop_toks x p
      show (let r : Option Str × Option Str × List Tok := (match loopToks x ++ pipeToks p with
          | .var i [] :: .comma :: .var x [] :: .declare :: ts => (some i, some x, ts)
          | .var x [] :: .declare :: ts => (none, some x, ts)
          | ts => (none, none, ts))
        (parseExpr fns r.2.2).bind fun e => (parseNodes fns n (ca ++ cb ++ c2)).bind fun a =>
          (parseElse fns n a.2.1 a.2.2).bind fun b =>
            (parseNodes fns n b.2).map fun p => (TNode.loop r.1 r.2.1 e a.1 b.1 :: p.1, p.2)) = _
      rw [hr]
      dsimp only
      rw [means_of he]
      show (parseNodes fns n (ca ++ cb ++ c2)).bind _ = _
      rw [List.append_assoc, parse_tms a has hca (cb ++ c2) h1 n (by omega)]
      show (parseElse fns n stop rest).bind _ = _
      rw [h2 n (by omega)]
      rfl
theorem parse_tms {fns : List (Str × Fn)} : ∀ (ts : List Tm) {ns : List TNode}, nodesL fns ts = some ns → ∀ {c1 : List Chunk}, Cs (marksL ts) c1 →
    ∀ (c2 : List Chunk) {stop : Stop} {rest : List Chunk}, (∀ m, parseNodes fns (m + 1) c2 = some ([], stop, rest)) → ∀ (n : Nat), c1.length + 1 ≤ n →
      parseNodes fns n (c1 ++ c2) = some (ns, stop, rest)
  | [], ns, h, c1, hc, c2, stop, rest, hr, n, hn => by
    rw [nodesL] at h
    cases h
    rw [marksL] at hc
    cases hc
    cases n with
    | zero => simp at hn
    | succ n => exact hr n
  | t :: ts, ns, h, c1, hc, c2, stop, rest, hr, n, hn => by
    rw [nodesL] at h
    obtain ⟨nd, hnd, h⟩ := Option.bind_eq_some_iff.1 h
    obtain ⟨ns', hns, rfl⟩ := Option.map_eq_some_iff.1 h
    rw [marksL] at hc
    obtain ⟨ca, cb, rfl, hca, hcb⟩ := hc.split
    have hp : 1 ≤ ca.length := by
      rw [hca.length]
      rcases t with _ | _ | _ | _ | _ | _ | ⟨_, _ | _⟩ <;> simp [Tm.marks]
    rw [List.length_append] at hn
    cases n with
    | zero => omega
    | succ n =>
      rw [List.append_assoc, parse_tm t hnd hca n _ (by omega), parse_tms ts hns hcb c2 hr n (by omega)]
      rfl
theorem parse_alt {fns : List (Str × Fn)} : ∀ (b : Alt) {bs : List TNode}, b.nodes fns = some bs → ∀ {c1 : List Chunk}, Cs b.marks c1 → ∀ (c2 : List Chunk),
    ∃ stop rest, (∀ m, parseNodes fns (m + 1) (c1 ++ c2) = some ([], stop, rest)) ∧ ∀ n, c1.length ≤ n → parseElse fns n stop rest = some (bs, c2)
  | .end_, bs, h, c1, hc, c2 => by
    rw [Alt.nodes] at h
    cases h
    rw [Alt.marks] at hc
    cases hc with
    | act hs h =>
      cases h
      refine ⟨.fin, c2, fun m => ?_, fun n hn => ?_⟩
      · show parseNodes fns (m + 1) (_ :: c2) = _
        rw [parseNodes_action hs]
        rfl
      · cases n with
        | zero => simp at hn
        | succ n => rw [parseElse.eq_def]
  | .else_ b, bs, h, c1, hc, c2 => by
    rw [Alt.nodes] at h
    rw [Alt.marks] at hc
    cases hc with
    | act hs hc =>
      obtain ⟨cb, ce, rfl, hcb, hce⟩ := hc.split
      cases hce with
      | @act se _ _ _ hs' h' =>
        cases h'
        refine ⟨.other [], cb ++ .action se :: c2, fun m => ?_, fun n hn => ?_⟩
        · rw [show (∀ (x y : Chunk), (x :: (cb ++ [y])) ++ c2 = x :: (cb ++ y :: c2)) from fun x y => by simp, parseNodes_action hs]
          rfl
        · simp only [List.length_cons, List.length_append, List.length_nil] at hn
          cases n with
          | zero => omega
          | succ n =>
            rw [parseElse.eq_def]
            dsimp only
            rw [parse_tms b h hcb (.action se :: c2) (stop := .fin) (rest := c2) (fun m => by rw [parseNodes_action hs']; rfl) n (by omega)]
            rfl
  | .elif x p a b, bs, h, c1, hc, c2 => by
    rw [Alt.nodes] at h
    obtain ⟨e, he, h⟩ := Option.bind_eq_some_iff.1 h
    obtain ⟨as, has, h⟩ := Option.bind_eq_some_iff.1 h
    obtain ⟨bs', hbs, rfl⟩ := Option.map_eq_some_iff.1 h
    rw [Alt.marks] at hc
    cases hc with
    | act hs hc =>
      obtain ⟨ca, cb, rfl, hca, hcb⟩ := hc.split
      obtain ⟨stop, rest, h1, h2⟩ := parse_alt b hbs hcb c2
      have hb := b.marks_pos
      have hl := hcb.length
      refine ⟨.other (.ident q%"if" :: (bindToks x ++ pipeToks p)), ca ++ cb ++ c2, fun m => ?_, fun n hn => ?_⟩
      · show parseNodes fns (m + 1) (_ :: (ca ++ cb ++ c2)) = _
        rw [parseNodes_action hs]
        rfl
      · simp only [List.length_cons, List.length_append] at hn
        cases n with
        | zero => omega
        | succ n =>
          rw [parseElse.eq_def]
          dsimp only
          rw [if_pos rfl, bound_bind, means_of he]
          show (parseNodes fns n (ca ++ cb ++ c2)).bind _ = _
          rw [List.append_assoc, parse_tms a has hca (cb ++ c2) h1 n (by omega)]
          show (parseElse fns n stop rest).map _ = _
          rw [h2 n (by omega)]
          simp only [declared_bind]
          rfl
end

end Booklit.Tmpl
