import Verif.Lemmas.PegShape

/-!
Every value produced by the booklit grammar has the documented shape, and no action panics.
-/

namespace Booklit.Peg

open Booklit

/-- What holds of each single node of a parsed document. -/
def NodeOk (doc : Str) : Node → Prop
  | .str s => ∀ c ∈ s, c ≠ '\n' ∧ c ≠ '\r'
  | .invoke fn _ loc => fn ≠ [] ∧ (∀ c ∈ fn, isFnChar c = true) ∧ CallAt doc fn loc
  | .seq _ => True
  | .para ls => ls ≠ [] ∧ ∀ l ∈ ls, l ≠ []
  | .pre _ => True

def Good (doc : Str) (n : Node) : Prop := ∀ m ∈ n.subs, NodeOk doc m

theorem good_subsL {doc : Str} : ∀ {ns : List Node}, (∀ n ∈ ns, Good doc n) → ∀ m ∈ subsL ns, NodeOk doc m
  | [], _, m, hm => by simp [subsL] at hm
  | n :: ns, h, m, hm => by
    simp only [subsL, List.mem_append] at hm
    rcases hm with hm | hm
    · exact h n (by simp) m hm
    · exact good_subsL (fun n hn => h n (by simp [hn])) m hm

theorem good_subsLL {doc : Str} : ∀ {ls : List (List Node)}, (∀ l ∈ ls, ∀ n ∈ l, Good doc n) → ∀ m ∈ subsLL ls, NodeOk doc m
  | [], _, m, hm => by simp [subsLL] at hm
  | l :: ls, h, m, hm => by
    simp only [subsLL, List.mem_append] at hm
    rcases hm with hm | hm
    · exact good_subsL (h l (by simp)) m hm
    · exact good_subsLL (fun n hn => h n (by simp [hn])) m hm

theorem Good.str {doc s} (h : ∀ c ∈ s, c ≠ '\n' ∧ c ≠ '\r') : Good doc (.str s) := by
  intro m hm; simp only [Node.subs, List.mem_singleton] at hm; subst hm; exact h

theorem Good.seq {doc ns} (h : ∀ n ∈ ns, Good doc n) : Good doc (.seq ns) := by
  intro m hm
  simp only [Node.subs, List.mem_cons] at hm
  rcases hm with rfl | hm
  · trivial
  · exact good_subsL h m hm

theorem subsL_mem {n m : Node} : ∀ {ns : List Node}, n ∈ ns → m ∈ n.subs → m ∈ subsL ns
  | a :: ns, h, hm => by
    simp only [subsL, List.mem_append]
    rcases List.mem_cons.mp h with rfl | h
    · exact Or.inl hm
    · exact Or.inr (subsL_mem h hm)

theorem Good.of_seq {doc ns} (h : Good doc (.seq ns)) : ∀ n ∈ ns, Good doc n := by
  intro n hn m hm
  exact h m (by simp only [Node.subs, List.mem_cons]; exact Or.inr (subsL_mem hn hm))

theorem Good.para {doc ls} (h0 : ls ≠ []) (h1 : ∀ l ∈ ls, l ≠ []) (h : ∀ l ∈ ls, ∀ n ∈ l, Good doc n) :
    Good doc (.para ls) := by
  intro m hm
  simp only [Node.subs, List.mem_cons] at hm
  rcases hm with rfl | hm
  · exact ⟨h0, h1⟩
  · exact good_subsLL h m hm

theorem Good.pre {doc ls} (h : ∀ l ∈ ls, ∀ n ∈ l, Good doc n) : Good doc (.pre ls) := by
  intro m hm
  simp only [Node.subs, List.mem_cons] at hm
  rcases hm with rfl | hm
  · trivial
  · exact good_subsLL h m hm

theorem Good.invoke {doc fn args loc} (h1 : fn ≠ []) (h2 : ∀ c ∈ fn, isFnChar c = true) (h3 : CallAt doc fn loc)
    (h : ∀ n ∈ args, Good doc n) : Good doc (.invoke fn args loc) := by
  intro m hm
  simp only [Node.subs, List.mem_cons] at hm
  rcases hm with rfl | hm
  · exact ⟨h1, h2, h3⟩
  · exact good_subsL h m hm

/-- Shape of the value of each rule. -/
def Shape (doc : Str) : Rule → Val → Prop
  | .booklit, v | .paragraphs, v | .paraArg, v =>
    ∃ ps, v = .node (.seq ps) ∧ ps ≠ [] ∧ ∀ p ∈ ps, (∃ ls, p = .para ls) ∧ Good doc p
  | .paragraph, v => ∃ ls, v = .node (.para ls) ∧ Good doc (.para ls)
  | .line, v => ∃ ns, v = .node (.seq ns) ∧ ns ≠ [] ∧ Good doc (.seq ns)
  | .wrappedLine, v | .verbatimLine, v | .preformattedBlockLine, v | .verbatimBlockLine, v =>
    ∃ ns, v = .node (.seq ns) ∧ Good doc (.seq ns)
  | .emptyArg, v => v = .nil
  | .indent, v => ∃ i, v = .str i ∧ ∀ c ∈ i, c ≠ '\n' ∧ c ≠ '\r'
  | .lineBreak, _ | .commentSpacing, _ | .comment, _ => True
  | .word, v | .string, v | .verbatimString, v | .interpolated, v | .split, v | .invoke, v | .verbatimArg, v
  | .preformattedArg, v | .arg, v | .argument, v | .preformattedBlock, v | .verbatimBlock, v =>
    ∃ n, v = .node n ∧ Good doc n

/-- The contract of all rules at a given fuel. -/
def Con (doc : Str) (n : Nat) : Prop :=
  ∀ r st, InDoc doc st → wp booklit n (.expr (.rule r)) st fun v st' => Shape doc r v ∧ st'.env = st.env

theorem ifaceNodes_ok {P : Node → Prop} : ∀ {vs : List Val}, (∀ x ∈ vs, ∃ n, x = .node n ∧ P n) →
    ∃ ns, ifaceNodes (.list vs) = some ns ∧ (∀ n ∈ ns, P n) ∧ ns.length = vs.length
  | [], _ => ⟨[], rfl, by simp, rfl⟩
  | x :: vs, h => by
    obtain ⟨n, rfl, hn⟩ := h x (by simp)
    obtain ⟨ns, h1, h2, h3⟩ := ifaceNodes_ok (vs := vs) (fun y hy => h y (by simp [hy]))
    refine ⟨n :: ns, ?_, ?_, by simp [h3]⟩
    · simp only [ifaceNodes, ifaceNodes.go] at h1 ⊢; simp [h1]
    · intro m hm; rcases List.mem_cons.mp hm with rfl | hm
      · exact hn
      · exact h2 m hm

theorem ifaceSequences_ok {P : List Node → Prop} : ∀ {vs : List Val}, (∀ x ∈ vs, ∃ n, x = .node (.seq n) ∧ P n) →
    ∃ ns, ifaceSequences (.list vs) = some ns ∧ (∀ n ∈ ns, P n) ∧ ns.length = vs.length
  | [], _ => ⟨[], rfl, by simp, rfl⟩
  | x :: vs, h => by
    obtain ⟨n, rfl, hn⟩ := h x (by simp)
    obtain ⟨ns, h1, h2, h3⟩ := ifaceSequences_ok (vs := vs) (fun y hy => h y (by simp [hy]))
    refine ⟨n :: ns, ?_, ?_, by simp [h3]⟩
    · simp only [ifaceSequences, ifaceSequences.go] at h1 ⊢; simp [h1]
    · intro m hm; rcases List.mem_cons.mp hm with rfl | hm
      · exact hn
      · exact h2 m hm

theorem ifaceStr_bytes (w : Str) : ifaceStr (.list (w.map fun c => .bytes [c])) = some w := by
  show ifaceStr.go _ = _
  induction w with
  | nil => rfl
  | cons c w ih => simp [ifaceStr.go, ih]

section
variable {doc : Str} {n : Nat}

theorem InDoc.push {st : PSt} (h : InDoc doc st) : InDoc doc st.push := h
theorem InDoc.pop {st st' : PSt} (h : InDoc doc st) : InDoc doc (st.pop st') := h
theorem InDoc.bind {st : PSt} {l v} (h : InDoc doc st) : InDoc doc (st.bind l v) := h

theorem InDoc.wp {t st} {K : Val → PSt → Prop} (hin : InDoc doc st)
    (h : wp booklit n t st fun v st' => InDoc doc st' → K v st') : wp booklit n t st K :=
  h.mono fun _ _ ⟨_, hm⟩ hk => hk (hin.moved hm)

theorem Con.rule (hc : Con doc n) {r st} (hin : InDoc doc st) {K : Val → PSt → Prop}
    (h : ∀ v st', InDoc doc st' → st'.env = st.env → Shape doc r v → K v st') :
    wp booklit n (.expr (.rule r)) st K :=
  (hc r st hin).mono fun v st' ⟨_, hm⟩ hk => h v st' (hin.moved hm) hk.2 hk.1

/-- Loops over anything whose values satisfy `Q`. -/
theorem wp_star_of {e} {Q : Val → Prop} (hb : ∀ st, InDoc doc st → wp booklit n (.expr e) st.push fun v _ => Q v)
    {st} (hin : InDoc doc st) {K : Val → PSt → Prop}
    (h : ∀ vs st', InDoc doc st' → st'.env = st.env → (∀ x ∈ vs, Q x) → K (.list vs) st') :
    wp booklit n (.star e) st K := by
  have := wp_loop (g := booklit) (n := n) (e := e) (I := fun s => InDoc doc s ∧ s.env = st.env) (Q := Q)
    (fun a b h1 h2 h3 hI => ⟨hI.1.same h1 h2, h3 ▸ hI.2⟩)
    (fun s hs => (hb s hs.1).mono fun v s' ⟨_, hm⟩ hq =>
      ⟨hq, (hs.1.push.moved hm).pop, hs.2⟩) st ⟨hin, rfl⟩
  refine this.mono ?_
  rintro v st' - ⟨vs, rfl, hq, hi⟩
  exact h vs st' hi.1 hi.2 hq

theorem wp_plus_of {e} {Q : Val → Prop} (hb : ∀ st, InDoc doc st → wp booklit n (.expr e) st.push fun v _ => Q v)
    {st} (hin : InDoc doc st) {K : Val → PSt → Prop}
    (h : ∀ vs st', InDoc doc st' → st'.env = st.env → vs ≠ [] → (∀ x ∈ vs, Q x) → K (.list vs) st') :
    wp booklit n (.expr (.plus e)) st K := by
  apply wp_plus
  refine (hb st hin).mono ?_
  rintro v st' ⟨_, hm⟩ hq
  have hin' : InDoc doc (st'.pop st) := (hin.push.moved hm).pop
  apply wp_star_of hb hin'
  rintro vs st'' h1 h2 h3 vs' ⟨⟩
  apply h _ _ h1 h2 (by simp)
  intro x hx
  rcases List.mem_cons.mp hx with rfl | hx
  · exact hq
  · exact h3 x hx

theorem Con.star (hc : Con doc n) {r st} (hin : InDoc doc st) {K : Val → PSt → Prop}
    (h : ∀ vs st', InDoc doc st' → st'.env = st.env → (∀ x ∈ vs, Shape doc r x) → K (.list vs) st') :
    wp booklit n (.expr (.star (.rule r))) st K :=
  wp_star (wp_star_of (Q := Shape doc r) (fun _ hs => hc.rule hs.push fun _ _ _ _ h => h) hin h)

theorem Con.plus (hc : Con doc n) {r st} (hin : InDoc doc st) {K : Val → PSt → Prop}
    (h : ∀ vs st', InDoc doc st' → st'.env = st.env → vs ≠ [] → (∀ x ∈ vs, Shape doc r x) → K (.list vs) st') :
    wp booklit n (.expr (.plus (.rule r))) st K :=
  wp_plus_of (Q := Shape doc r) (fun _ hs => hc.rule hs.push fun _ _ _ _ h => h) hin h

theorem Con.opt (hc : Con doc n) {r st} (hin : InDoc doc st) {K : Val → PSt → Prop}
    (h : ∀ v st', InDoc doc st' → st'.env = st.env → (v = .nil ∨ Shape doc r v) → K v st') :
    wp booklit n (.expr (.opt (.rule r))) st K := by
  apply wp_opt
  · exact hc.rule hin.push fun v st' h1 h2 h3 => h v _ h1.pop rfl (Or.inr h3)
  · intro st' h1 h2 h3; exact h _ _ (hin.same h1.symm h2.symm) h3 (Or.inl rfl)

/-- Choice between rules. -/
theorem Con.choice (hc : Con doc n) {K : Val → PSt → Prop} : ∀ (rs : List Rule) {st}, InDoc doc st →
    (∀ r ∈ rs, ∀ v st', InDoc doc st' → st'.env = st.env → Shape doc r v → K v st') →
    wp booklit n (.choice (rs.map .rule)) st K
  | [], _, _, _ => wp_choice_nil
  | r :: rs, st, hin, h => by
    apply wp_alt
    · exact hc.rule hin.push fun v st' h1 h2 h3 => h r (by simp) v _ h1.pop rfl h3
    · intro st' h1 h2 h3
      refine Con.choice hc rs (hin.same h1.symm h2.symm) ?_
      intro r hr v st'' h4 h5 h6
      exact h r (by simp [hr]) v st'' h4 (by rw [h5, h3]) h6

theorem wp_blanks {st : PSt} (hin : InDoc doc st) {K : Val → PSt → Prop}
    (h : ∀ v st', InDoc doc st' → st'.env = st.env → K v st') : wp booklit n (.expr blanks) st K := by
  apply wp_star; apply wp_star_cls
  intro w next st' _ _ _ hm _ he _
  exact h _ _ (hin.moved hm) he

theorem InDoc.skip {st : PSt} {s next b p} (hin : InDoc doc st) (hr : st.rest = s ++ next) :
    InDoc doc ((st.skip s next).failAt b p) := by
  refine hin.moved (w := s) ⟨?_, ?_⟩
  · simpa [PSt.skip] using hr
  · simp [PSt.skip]

theorem wp_litD {s : Str} {st : PSt} (hin : InDoc doc st) {K : Val → PSt → Prop}
    (h : ∀ st', InDoc doc st' → st'.env = st.env → K (.bytes s) st') : wp booklit n (.expr (.lit s)) st K := by
  apply wp_lit
  intro next b p hr
  refine h _ (hin.skip hr) ?_
  simp [PSt.skip]

end

end Booklit.Peg
