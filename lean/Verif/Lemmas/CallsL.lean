import Verif.Spec.Calls
import Verif.Lemmas.Sound

/-!
Lemmas about calls.
-/

namespace Booklit

variable {W : World}

theorem arityOk_iff (sig : List Ty × Option Ty) (n : Nat) : arityOk sig n = true ↔ Accepts sig n := by
  obtain ⟨ts, v⟩ := sig
  cases v with
  | none =>
    simp only [arityOk, Accepts, beq_iff_eq, ne_eq, not_true_eq_false, false_and, or_false, true_and]
    exact eq_comm
  | some t => simp [arityOk, Accepts]

theorem findMethod_iff (name : Str) (m : Method) : ∀ ps : List Nat, findMethod W name ps = some m ↔
    ∃ pre p post, ps = pre ++ p :: post ∧ (∀ q ∈ pre, methodOf W q name = none) ∧ methodOf W p name = some m
  | [] => by simp [findMethod]
  | p :: ps => by
    rw [findMethod]
    cases hp : methodOf W p name with
    | some m' =>
      dsimp only
      constructor
      · intro h; cases h; exact ⟨[], p, ps, rfl, by simp, hp⟩
      · rintro ⟨pre, q, post, e, h1, h2⟩
        cases pre with
        | nil => cases e; rw [hp] at h2; exact h2
        | cons a pre => cases e; rw [h1 p (by simp)] at hp; cases hp
    | none =>
      dsimp only
      rw [findMethod_iff name m ps]
      constructor
      · rintro ⟨pre, q, post, rfl, h1, h2⟩
        exact ⟨p :: pre, q, post, rfl, by simpa [hp] using h1, h2⟩
      · rintro ⟨pre, q, post, e, h1, h2⟩
        cases pre with
        | nil => cases e; rw [hp] at h2; cases h2
        | cons a pre => cases e; exact ⟨pre, q, post, rfl, fun x hx => h1 x (by simp [hx]), h2⟩

theorem findMethod_none (name : Str) : ∀ ps : List Nat, findMethod W name ps = none ↔ ∀ p ∈ ps, methodOf W p name = none
  | [] => by simp [findMethod]
  | p :: ps => by
    rw [findMethod]
    cases hp : methodOf W p name with
    | some m => simp [hp]
    | none => simp [hp, findMethod_none name ps]

theorem findMethod_head {name : Str} {b : Base} (hb : baseMethods.lookup name = some b) {ps : List Nat} (h : ps.head? = some 0) :
    findMethod W name ps = some (.base b) := by
  cases ps with
  | nil => cases h
  | cons p ps => cases h; simp [findMethod, methodOf, hb]

/-- The error of an argument, after the ones before it have been converted. -/
theorem convertAll_err {k i : Nat} {a : Node × Ev} {post : List (Node × Ev)} {v : Option Ty} {t : Ty} {e : Err} {s1 s2 : St}
    (hc : convert W k i t a s1 = (.err e, s2)) : ∀ (pre : List (Node × Ev)) (ts : List Ty) (s : St) (vs : List ArgV),
    typeAt (ts, v) pre.length = some t → convertAll W k i ts v pre s = (.ok vs, s1) →
    convertAll W k i ts v (pre ++ a :: post) s = (.err e, s2)
  | [], ts, s, vs, ht, h => by
    have : s = s1 := by
      cases ts <;> cases v <;> (simp only [convertAll, M.pure_run] at h; injection h)
    subst this
    cases ts with
    | nil =>
      simp only [typeAt, List.length_nil] at ht
      subst ht
      simp only [List.nil_append, convertAll, M.bind_run, M.bind, hc]
    | cons t' ts =>
      simp only [typeAt, List.length_nil] at ht
      cases ht
      simp only [List.nil_append, convertAll, M.bind_run, M.bind, hc]
  | b :: pre, [], s, vs, ht, h => by
    have hv : v = some t := by simpa [typeAt] using ht
    subst hv
    simp only [convertAll, M.bind_run, M.bind] at h
    simp only [List.cons_append, convertAll, M.bind_run, M.bind]
    cases hx : convert W k i t b s with
    | mk r s3 =>
      rw [hx] at h
      cases r with
      | ok x =>
        dsimp only at h ⊢
        cases hy : convertAll W k i [] (some t) pre s3 with
        | mk r' s4 =>
          rw [hy] at h
          cases r' with
          | ok xs =>
            simp only [M.pure_run] at h
            injection h with h1 h2
            subst h2
            rw [convertAll_err hc pre [] s3 xs (by simp [typeAt]) hy]
          | err _ => cases h
          | panic => cases h
          | more => cases h
      | err _ => cases h
      | panic => cases h
      | more => cases h
  | b :: pre, t' :: ts, s, vs, ht, h => by
    simp only [convertAll, M.bind_run, M.bind] at h
    simp only [List.cons_append, convertAll, M.bind_run, M.bind]
    cases hx : convert W k i t' b s with
    | mk r s3 =>
      rw [hx] at h
      cases r with
      | ok x =>
        dsimp only at h ⊢
        cases hy : convertAll W k i ts v pre s3 with
        | mk r' s4 =>
          rw [hy] at h
          cases r' with
          | ok xs =>
            simp only [M.pure_run] at h
            injection h with h1 h2
            subst h2
            rw [convertAll_err hc pre ts s3 xs (by simpa [typeAt] using ht) hy]
          | err _ => cases h
          | panic => cases h
          | more => cases h
      | err _ => cases h
      | panic => cases h
      | more => cases h

theorem evalArgs_append (k : Nat) (inc : Inc) : ∀ (as bs : List Node),
    evalArgs W k inc (as ++ bs) = evalArgs W k inc as ++ evalArgs W k inc bs
  | [], bs => rfl
  | a :: as, bs => by simp [evalArgs, evalArgs_append k inc as bs]

theorem evalSeq_append (k : Nat) (inc : Inc) : ∀ (as bs : List Node) (i : Nat) (r : Content) (s : St),
    evalSeq W k inc (as ++ bs) i r s = (evalSeq W k inc as i r >>= fun r' => evalSeq W k inc bs i r') s
  | [], bs, i, r, s => rfl
  | a :: as, bs, i, r, s => by
    simp only [List.cons_append, evalSeq, M.bind_run, M.bind]
    cases evalNode W k inc a i r s with
    | mk x s1 =>
      cases x with
      | ok r1 =>
        dsimp only
        rw [evalSeq_append k inc as bs i r1 s1]
        rfl
      | _ => rfl

theorem evalLines_err {k : Nat} {inc : Inc} {l : List Node} {post : List (List Node)} {i : Nat} {s1 s2 : St} {e : Err}
    (he : evalSeq W k inc l i .nil s1 = (.err e, s2)) : ∀ (pre : List (List Node)) (s : St) (xs : List Content),
    evalLines W k inc pre i s = (.ok xs, s1) → evalLines W k inc (pre ++ l :: post) i s = (.err e, s2)
  | [], s, xs, h => by
    have : s = s1 := by simp only [evalLines, M.pure_run] at h; injection h
    subst this
    simp only [List.nil_append, evalLines, M.bind_run, M.bind, he]
  | b :: pre, s, xs, h => by
    simp only [evalLines, M.bind_run, M.bind] at h
    simp only [List.cons_append, evalLines, M.bind_run, M.bind]
    cases hx : evalSeq W k inc b i .nil s with
    | mk r s3 =>
      rw [hx] at h
      cases r with
      | ok x =>
        dsimp only at h ⊢
        cases hy : evalLines W k inc pre i s3 with
        | mk r' s4 =>
          rw [hy] at h
          cases r' with
          | ok ys =>
            simp only [M.pure_run] at h
            injection h with h1 h2
            subst h2
            rw [evalLines_err he pre s3 ys hy]
          | err _ => cases h
          | panic => cases h
          | more => cases h
      | err _ => cases h
      | panic => cases h
      | more => cases h

/-- `\include-section{...}` in a section whose first plugin is baselit, once its argument has been evaluated. -/
theorem include_run (k : Nat) (inc : Inc) (a : Node) (loc : Location) (i : Nat) (r c : Content) (s s1 : St) {path path1 name : Str}
    (hp : s.heap.filePath (s.heap.length + 1) i = some path) (h0 : (s.heap.get i).plugins.head? = some 0)
    (ha : evalNode W k inc a i .nil (s.calling i loc) = (.ok c, s1)) (ht : s1.heap.text W.brokenOk k c = .ok name)
    (hp1 : s1.heap.filePath (s1.heap.length + 1) i = some path1) :
    evalNode W k inc (.invoke q%"include-section" [a] loc) i r s =
      match inc i (joinPath (dirPath path1) name) s1 with
      | (.ok _, s') => (.ok r, s')
      | (.err e, s') => (.err (returnedError q%"include-section" path loc e), s')
      | (.panic, s') => (.panic, s')
      | (.more, s') => (.more, s') := by
  rw [invoke_run, hp]
  have hm : findMethod W (methodName q%"include-section") (s.heap.get i).plugins = some (.base .includeSection) :=
    findMethod_head (by decide) h0
  rw [hm]
  simp only [Method.sig, Base.sig, arityOk, List.length_singleton, beq_self_eq_true, if_true, evalArgs, convertAll, convert]
  have e1 : (([ArgV.str name]).any ArgV.isZero) = false := rfl
  simp only [M.bind_run, M.bind, M.pure_run, M.get, M.lift, ha, ht, callMethod, e1, callBase, M.attempt, Bool.false_eq_true, if_false,
    filePathM, hp1, Res.ofFuel]
  cases inc i (joinPath (dirPath path1) name) s1 with
  | mk x s' => cases x <;> rfl

theorem returnedError_pretty {fn path : Str} {loc : Location} {e : Err} (h : e.pretty = true) : returnedError fn path loc e = e := by
  rw [returnedError, h]; rfl

theorem inside_err {p q : Point} (h : Inside W p q) {e : Err} (he : e.pretty = true) :
    ∀ s', q.run W = (.err e, s') → ∃ s'', p.run W = (.err e, s'') := by
  induction h with
  | here p => exact fun s' h => ⟨s', h⟩
  | @seq k i pre post n r r1 s s1 q h1 _ ih =>
    intro s' h
    obtain ⟨s2, h2⟩ := ih s' h
    refine ⟨s2, ?_⟩
    simp only [Point.run] at h2 ⊢
    rw [evalNode, evalSeq_append]
    simp only [M.bind_run, M.bind, h1]
    rw [evalSeq]
    simp only [M.bind_run, M.bind, h2]
  | @para k i pre post l r xs s s1 q h1 _ ih =>
    intro s' h
    obtain ⟨s2, h2⟩ := ih s' h
    refine ⟨s2, ?_⟩
    simp only [Point.run] at h2 ⊢
    rw [evalNode] at h2
    rw [evalNode]
    simp only [M.bind_run, M.bind, evalLines_err h2 pre s xs h1]
  | @pre k i pre post l r xs s s1 q h1 _ ih =>
    intro s' h
    obtain ⟨s2, h2⟩ := ih s' h
    refine ⟨s2, ?_⟩
    simp only [Point.run] at h2 ⊢
    rw [evalNode] at h2
    rw [evalNode]
    simp only [M.bind_run, M.bind, evalLines_err h2 pre s xs h1]
  | @arg k i fn pre post a loc r s s1 path m t vs q hp hm ha ht hty hc _ ih =>
    intro s' h
    obtain ⟨s2, h2⟩ := ih s' h
    refine ⟨s2, ?_⟩
    simp only [Point.run] at h2 ⊢
    rw [invoke_run, hp]
    simp only [hm]
    rw [if_pos ((arityOk_iff _ _).2 ha), evalArgs_append, evalArgs]
    have hconv : convert W k i t (a, evalNode W k (incl W k) a) s1 = (.err e, s2) := by
      rcases hty with rfl | rfl
      · simp only [convert, M.bind_run, M.bind, h2]
      · simp only [convert, M.bind_run, M.bind, h2]
    have := convertAll_err (post := evalArgs W k (incl W k) post) hconv (evalArgs W k (incl W k) pre) m.sig.1 (s.calling i loc) vs
      (v := m.sig.2) (by rw [evalArgs_length]; exact ht) hc
    simp only [M.bind_run, M.bind, this]
  | @sect k i n loc r s path q hp h0 _ ih =>
    intro s' h
    obtain ⟨s2, h2⟩ := ih s' h
    refine ⟨s2, ?_⟩
    simp only [Point.run] at h2 ⊢
    rw [section_run k (incl W k) n loc i r s hp h0, evalInline_run, St.length_calling, evalBody_run, h2]
    dsimp only
    rw [returnedError_pretty he]
  | @file k i a node loc r c s s1 path path1 name full info q hp h0 ha ht hp1 hfull hfs hn _ ih =>
    intro s' h
    obtain ⟨s2, h2⟩ := ih s' h
    refine ⟨s2, ?_⟩
    simp only [Point.run] at h2 ⊢
    rw [include_run (k + 1) (incl W (k + 1)) a loc i r c s s1 hp h0 ha ht hp1, ← hfull]
    have : incl W (k + 1) i full s1 = (.err e, s2) := by
      simp only [incl, M.bind_run, M.bind]
      rw [evalFile_run, hfs]
      simp only [hn]
      rw [evalBody_run, h2]
    rw [this]
    dsimp only
    rw [returnedError_pretty he]

/-! ### Types of converted arguments -/

theorem convertAll_typed {k i : Nat} {inc : Inc} (v : Option Ty) : ∀ (as : List Node) (ts : List Ty) (s s' : St) (vals : List ArgV),
    (v = none → as.length = ts.length) → (v ≠ none → ts.length ≤ as.length) →
    convertAll W k i ts v (evalArgs W k inc as) s = (.ok vals, s') → vals.any ArgV.isZero = false →
    vals.length = as.length ∧ ∀ (j : Nat) (n : Node) (x : ArgV), as[j]? = some n → vals[j]? = some x →
      ∃ t, typeAt (ts, v) j = some t ∧ HasType n t x.raw
  | [], ts, s, s', vals, h1, h2, h, hz => by
    have : vals = [] := by
      cases ts <;> cases v <;> (simp only [evalArgs, convertAll, M.pure_run] at h; injection h with h; injection h with h; exact h.symm)
    subst this
    simp
  | a :: as, ts, s, s', vals, h1, h2, h, hz => by
    have hone : ∀ t s x s1, convert W k i t (a, evalNode W k inc a) s = (.ok x, s1) → x.isZero = false → HasType a t x.raw := by
      intro t s x s1 hx hz
      cases t with
      | string =>
        simp only [convert, M.bind_run, M.bind] at hx
        cases he : evalNode W k inc a i .nil s with
        | mk r s2 =>
          rw [he] at hx
          cases r with
          | ok c =>
            simp only [M.get, M.lift] at hx
            cases ht : s2.heap.text W.brokenOk k c with
            | ok t => rw [ht] at hx; cases hx; trivial
            | err _ => rw [ht] at hx; cases hx
            | panic => rw [ht] at hx; cases hx
            | more => rw [ht] at hx; cases hx
          | err _ => cases hx
          | panic => cases hx
          | more => cases hx
      | content =>
        simp only [convert, M.bind_run, M.bind] at hx
        cases he : evalNode W k inc a i .nil s with
        | mk r s2 =>
          rw [he] at hx
          cases r with
          | ok c =>
            simp only [M.pure_run] at hx
            injection hx with hx _
            injection hx with hx
            subst hx
            by_cases hc : c.isNil = true
            · rw [if_pos hc] at hz; cases hz
            · rw [if_neg hc]
              show c.isNil = false
              simpa using hc
          | err _ => cases hx
          | panic => cases hx
          | more => cases hx
      | node => cases hx; rfl
      | other => cases hx
    obtain ⟨t, ts', v', hv⟩ : ∃ t ts', typeAt (ts, v) 0 = some t ∧ (∀ j, typeAt (ts, v) (j + 1) = typeAt (ts', v) j) ∧
        (v = none → as.length = ts'.length) ∧ (v ≠ none → ts'.length ≤ as.length) ∧
        convertAll W k i ts v (evalArgs W k inc (a :: as)) s =
          (convert W k i t (a, evalNode W k inc a) >>= fun x => convertAll W k i ts' v (evalArgs W k inc as) >>= fun xs =>
            Pure.pure (x :: xs)) s := by
      cases ts with
      | cons t ts =>
        refine ⟨t, ts, rfl, fun _ => rfl, fun hv => by simpa using h1 hv, fun hv => by simpa using h2 hv, ?_⟩
        cases v <;> rfl
      | nil =>
        cases v with
        | none => simp at h1
        | some t => exact ⟨t, [], rfl, fun _ => (by simp [typeAt]), fun hv => (by cases hv), fun _ => Nat.zero_le _, rfl⟩
    obtain ⟨hv1, hv2, hv3, hv4⟩ := hv
    rw [hv4] at h
    simp only [M.bind_run, M.bind] at h
    cases hx : convert W k i t (a, evalNode W k inc a) s with
    | mk r s1 =>
      rw [hx] at h
      cases r with
      | ok x =>
        dsimp only at h
        cases hy : convertAll W k i ts' v (evalArgs W k inc as) s1 with
        | mk r' s2 =>
          rw [hy] at h
          cases r' with
          | ok xs =>
            simp only [M.pure_run] at h
            injection h with h _
            injection h with h
            subst h
            simp only [List.any_cons, Bool.or_eq_false_iff] at hz
            obtain ⟨l1, l2⟩ := convertAll_typed v as ts' s1 s2 xs hv2 hv3 hy hz.2
            refine ⟨by simp [l1], fun j n y hn hyy => ?_⟩
            cases j with
            | zero =>
              simp only [List.getElem?_cons_zero, Option.some.injEq] at hn hyy
              subst hn hyy
              exact ⟨t, v', hone t s x s1 hx hz.1⟩
            | succ j =>
              simp only [List.getElem?_cons_succ] at hn hyy
              obtain ⟨t', e1, e2⟩ := l2 j n y hn hyy
              exact ⟨t', by rw [hv1]; exact e1, e2⟩
          | err _ => cases h
          | panic => cases h
          | more => cases h
      | err _ => cases h
      | panic => cases h
      | more => cases h

/-! ### Nodes without calls -/

theorem finishPara_state (r : Content) (xs : List Content) (s : St) : (finishPara r xs s).2 = s := by
  match xs with
  | [] => rfl
  | [x] => simp only [finishPara]; cases isFlow x with
    | none => rfl
    | some b => cases b <;> rfl
  | _ :: _ :: _ => rfl

mutual
theorem callFree_state {k : Nat} {inc : Inc} : ∀ (n : Node) (i : Nat) (r : Content) (s : St), n.callFree = true →
    (evalNode W k inc n i r s).2 = s
  | .str _, i, r, s, _ => by rw [evalNode]; rfl
  | .seq ns, i, r, s, h => by rw [evalNode]; exact callFreeL_state ns i r s (by simpa [Node.callFree] using h)
  | .para ls, i, r, s, h => by
    rw [evalNode]
    have h1 := callFreeLL_state (k := k) (inc := inc) ls i s (by simpa [Node.callFree] using h)
    simp only [M.bind_run, M.bind]
    revert h1
    cases evalLines W k inc ls i s with
    | mk x s1 =>
      intro h1
      dsimp only at h1
      subst h1
      cases x with
      | ok xs => exact finishPara_state _ _ _
      | _ => rfl
  | .pre ls, i, r, s, h => by
    rw [evalNode]
    have h1 := callFreeLL_state (k := k) (inc := inc) ls i s (by simpa [Node.callFree] using h)
    simp only [M.bind_run, M.bind]
    revert h1
    cases evalLines W k inc ls i s with
    | mk x s1 =>
      intro h1
      dsimp only at h1
      subst h1
      cases x <;> rfl
  | .invoke _ _ _, i, r, s, h => by simp [Node.callFree] at h
theorem callFreeL_state {k : Nat} {inc : Inc} : ∀ (ns : List Node) (i : Nat) (r : Content) (s : St), callFreeL ns = true →
    (evalSeq W k inc ns i r s).2 = s
  | [], i, r, s, _ => by rw [evalSeq]; rfl
  | n :: ns, i, r, s, h => by
    simp only [callFreeL, Bool.and_eq_true] at h
    rw [evalSeq]
    have h1 := callFree_state (k := k) (inc := inc) n i r s h.1
    simp only [M.bind_run, M.bind]
    revert h1
    cases evalNode W k inc n i r s with
    | mk x s1 =>
      intro h1
      dsimp only at h1
      subst h1
      cases x with
      | ok r1 => exact callFreeL_state ns i r1 s1 h.2
      | _ => rfl
theorem callFreeLL_state {k : Nat} {inc : Inc} : ∀ (ls : List (List Node)) (i : Nat) (s : St), callFreeLL ls = true →
    (evalLines W k inc ls i s).2 = s
  | [], i, s, _ => by rw [evalLines]; rfl
  | l :: ls, i, s, h => by
    simp only [callFreeLL, Bool.and_eq_true] at h
    rw [evalLines]
    have h1 := callFreeL_state (k := k) (inc := inc) l i .nil s h.1
    simp only [M.bind_run, M.bind]
    revert h1
    cases evalSeq W k inc l i .nil s with
    | mk x s1 =>
      intro h1
      dsimp only at h1
      subst h1
      cases x with
      | ok r1 =>
        have h2 := callFreeLL_state (k := k) (inc := inc) ls i s1 h.2
        dsimp only
        revert h2
        cases evalLines W k inc ls i s1 with
        | mk y s2 =>
          intro h2
          dsimp only at h2
          subst h2
          cases y <;> rfl
      | _ => rfl
end

theorem convert_state {k i : Nat} {a : Node × Ev} (h : ∀ i r s, (a.2 i r s).2 = s) (t : Ty) (s : St) :
    (convert W k i t a s).2 = s := by
  obtain ⟨n, ev⟩ := a
  cases t with
  | string =>
    simp only [convert, M.bind_run, M.bind]
    have h1 := h i .nil s
    revert h1
    dsimp only
    cases ev i .nil s with
    | mk x s1 =>
      intro h1
      dsimp only at h1
      subst h1
      cases x with
      | ok c =>
        simp only [M.get, M.lift]
        cases s1.heap.text W.brokenOk k c <;> rfl
      | _ => rfl
  | content =>
    simp only [convert, M.bind_run, M.bind]
    have h1 := h i .nil s
    revert h1
    dsimp only
    cases ev i .nil s with
    | mk x s1 =>
      intro h1
      dsimp only at h1
      subst h1
      cases x <;> rfl
  | node => rfl
  | other => rfl

theorem convertAll_state {k i : Nat} (v : Option Ty) : ∀ (as : List (Node × Ev)) (ts : List Ty) (s : St),
    (∀ a ∈ as, ∀ i r s, (a.2 i r s).2 = s) → (convertAll W k i ts v as s).2 = s
  | [], ts, s, _ => by cases ts <;> cases v <;> rfl
  | a :: as, ts, s, h => by
    have step : ∀ t ts', ((convert W k i t a >>= fun x => convertAll W k i ts' v as >>= fun xs => (Pure.pure (x :: xs) : M _)) s).2 = s := by
      intro t ts'
      simp only [M.bind_run, M.bind]
      have h1 := convert_state (W := W) (k := k) (i := i) (h a (by simp)) t s
      revert h1
      cases convert W k i t a s with
      | mk x s1 =>
        intro h1
        dsimp only at h1
        subst h1
        cases x with
        | ok y =>
          have h2 := convertAll_state (k := k) (i := i) v as ts' s1 fun b hb => h b (by simp [hb])
          dsimp only
          revert h2
          cases convertAll W k i ts' v as s1 with
          | mk z s2 =>
            intro h2
            dsimp only at h2
            subst h2
            cases z <;> rfl
        | _ => rfl
    cases ts with
    | cons t ts => cases v <;> exact step t ts
    | nil =>
      cases v with
      | none => rfl
      | some t => exact step t []

theorem evalArgs_callFree {k : Nat} {inc : Inc} : ∀ (as : List Node), (∀ a ∈ as, a.callFree = true) →
    ∀ a ∈ evalArgs W k inc as, ∀ i r s, (a.2 i r s).2 = s
  | [], _ => by simp [evalArgs]
  | n :: ns, h => by
    intro a ha
    rw [evalArgs] at ha
    rcases List.mem_cons.1 ha with rfl | ha
    · exact fun i r s => callFree_state n i r s (h n (by simp))
    · exact evalArgs_callFree ns (fun x hx => h x (by simp [hx])) a ha

/-! ### Method names -/

theorem splitDash_word {w : Str} (hw : ∀ c ∈ w, c ≠ '-') : ∀ (cur rest : Str), splitDash cur (w ++ '-' :: rest) = (cur ++ w) :: splitDash [] rest := by
  induction w with
  | nil => intro cur rest; simp [splitDash]
  | cons c w ih =>
    intro cur rest
    have := hw c (by simp)
    simp only [List.cons_append, splitDash, if_neg this]
    rw [ih fun d hd => hw d (by simp [hd])]
    simp

theorem splitDash_last {w : Str} (hw : ∀ c ∈ w, c ≠ '-') : ∀ (cur : Str), splitDash cur w = [cur ++ w] := by
  induction w with
  | nil => intro cur; simp [splitDash]
  | cons c w ih =>
    intro cur
    have := hw c (by simp)
    simp only [splitDash, if_neg this]
    rw [ih fun d hd => hw d (by simp [hd])]
    simp

theorem IsWord.noDash {w : Str} (h : IsWord w) : ∀ c ∈ w, c ≠ '-' := by
  intro c hc e
  subst e
  exact absurd (h.2 _ hc).1 (by decide)

theorem splitDash_dashed : ∀ {ws : List Str}, ws ≠ [] → (∀ w ∈ ws, IsWord w) → splitDash [] (dashed ws) = ws
  | [], h, _ => absurd rfl h
  | [w], _, hw => by
    rw [dashed, splitDash_last (hw w (by simp)).noDash]
    simp
  | w :: v :: ws, _, hw => by
    rw [dashed]
    · rw [splitDash_word (hw w (by simp)).noDash, splitDash_dashed (by simp) fun x hx => hw x (by simp [hx])]
      simp
    · simp

/-- Upper case letters. -/
def isUpper (c : Char) : Bool := decide ('A' ≤ c) && decide (c ≤ 'Z')

theorem lower_nat {c : Char} (h : 'a' ≤ c ∧ c ≤ 'z') : 97 ≤ c.toNat ∧ c.toNat ≤ 122 := by
  constructor
  · have := h.1; simp only [Char.le_def, UInt32.le_iff_toNat_le] at this; exact this
  · have := h.2; simp only [Char.le_def, UInt32.le_iff_toNat_le] at this; exact this

theorem upper_word {c : Char} (h : 'a' ≤ c ∧ c ≤ 'z') : isUpper (upper c) = true ∧ isUpper c = false ∧ (upper c).toNat = c.toNat - 32 := by
  obtain ⟨h1, h2⟩ := lower_nat h
  have hu : upper c = Char.ofNat (c.toNat - 32) := by rw [upper, if_pos h]
  have hn : (Char.ofNat (c.toNat - 32)).toNat = c.toNat - 32 := by
    have hv : (c.toNat - 32).isValidChar := Or.inl (by omega)
    simp only [Char.ofNat, hv, dif_pos]
    rfl
  refine ⟨?_, ?_, by rw [hu, hn]⟩
  · rw [hu]
    simp only [isUpper, Bool.and_eq_true, decide_eq_true_iff, Char.le_def, UInt32.le_iff_toNat_le]
    have : (Char.ofNat (c.toNat - 32)).val.toNat = c.toNat - 32 := hn
    rw [this]
    have a1 : ('A' : Char).val.toNat = 65 := rfl
    have a2 : ('Z' : Char).val.toNat = 90 := rfl
    omega
  · simp only [isUpper, Bool.and_eq_false_iff, decide_eq_false_iff_not, Char.le_def, UInt32.le_iff_toNat_le]
    right
    have : c.val.toNat = c.toNat := rfl
    have a2 : ('Z' : Char).val.toNat = 90 := rfl
    omega

theorem upper_inj {c d : Char} (hc : 'a' ≤ c ∧ c ≤ 'z') (hd : 'a' ≤ d ∧ d ≤ 'z') (h : upper c = upper d) : c = d := by
  have h1 := (upper_word hc).2.2
  have h2 := (upper_word hd).2.2
  rw [h, h2] at h1
  have := lower_nat hc
  have := lower_nat hd
  apply Char.ext
  apply UInt32.toNat_inj.1
  show c.toNat = d.toNat
  omega

/-- The words can be read off their title-cased concatenation. -/
theorem titleCase_inj : ∀ {ws vs : List Str}, (∀ w ∈ ws, IsWord w) → (∀ w ∈ vs, IsWord w) →
    ws.flatMap titleCase = vs.flatMap titleCase → ws = vs
  | [], [], _, _, _ => rfl
  | [], v :: vs, _, hv, h => by
    obtain ⟨h1, _⟩ := hv v (by simp)
    cases v with
    | nil => exact absurd rfl h1
    | cons c v => simp [titleCase] at h
  | w :: ws, [], hw, _, h => by
    obtain ⟨h1, _⟩ := hw w (by simp)
    cases w with
    | nil => exact absurd rfl h1
    | cons c v => simp [titleCase] at h
  | w :: ws, v :: vs, hw, hv, h => by
    obtain ⟨w1, w2⟩ := hw w (by simp)
    obtain ⟨v1, v2⟩ := hv v (by simp)
    have tails : ∀ {us : List Str}, (∀ w ∈ us, IsWord w) → ∀ c rest, us.flatMap titleCase = c :: rest → isUpper c = true := by
      intro us hu c rest e
      cases us with
      | nil => simp at e
      | cons u us =>
        obtain ⟨u1, u2⟩ := hu u (by simp)
        cases u with
        | nil => exact absurd rfl u1
        | cons d u =>
          simp only [List.flatMap_cons, titleCase, List.cons_append, List.cons.injEq] at e
          rw [← e.1]
          exact (upper_word (u2 d (by simp))).1
    have hwt := tails (us := ws) fun x hx => hw x (by simp [hx])
    have hvt := tails (us := vs) fun x hx => hv x (by simp [hx])
    cases w with
    | nil => exact absurd rfl w1
    | cons c w =>
      cases v with
      | nil => exact absurd rfl v1
      | cons d v =>
        simp only [List.flatMap_cons, titleCase, List.cons_append, List.cons.injEq] at h
        have e1 := upper_inj (w2 c (by simp)) (v2 d (by simp)) h.1
        have key : ∀ (a b : Str) (x y : Str), (∀ z ∈ a, isUpper z = false) → (∀ z ∈ b, isUpper z = false) →
            (∀ z r, x = z :: r → isUpper z = true) → (∀ z r, y = z :: r → isUpper z = true) → a ++ x = b ++ y → a = b ∧ x = y := by
          intro a
          induction a with
          | nil =>
            intro b x y _ hb hx _ e
            cases b with
            | nil => exact ⟨rfl, e⟩
            | cons z b =>
              simp only [List.nil_append] at e
              have := hx z (b ++ y) e
              rw [hb z (by simp)] at this
              cases this
          | cons z a ih =>
            intro b x y ha hb hx hy e
            cases b with
            | nil =>
              simp only [List.nil_append] at e
              have := hy z (a ++ x) e.symm
              rw [ha z (by simp)] at this
              cases this
            | cons z' b =>
              simp only [List.cons_append, List.cons.injEq] at e
              obtain ⟨r1, r2⟩ := ih b x y (fun q hq => ha q (by simp [hq])) (fun q hq => hb q (by simp [hq])) hx hy e.2
              exact ⟨by rw [e.1, r1], r2⟩
        obtain ⟨e2, e3⟩ := key w v _ _ (fun z hz => (upper_word (w2 z (by simp [hz]))).2.1)
          (fun z hz => (upper_word (v2 z (by simp [hz]))).2.1) (fun z r => hwt z r) (fun z r => hvt z r) h.2
        have e4 := titleCase_inj (fun x hx => hw x (by simp [hx])) (fun x hx => hv x (by simp [hx])) e3
        rw [e1, e2, e4]

end Booklit
