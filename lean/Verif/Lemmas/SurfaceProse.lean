import Verif.Lemmas.SurfaceRead
import Verif.Spec.Prose

/-!
Prose and blocks as surface documents.
-/

namespace Booklit

open Booklit.Src Booklit.Peg

/-- The words of a line of prose: runs of text and escaped characters. -/
def wordsOf (run : Str) : Str → List Word
  | [] => if run.isEmpty then [] else [.mk (.text run) none]
  | c :: t => if special c then (if run.isEmpty then [] else [.mk (.text run) none]) ++ .mk (.esc c) none :: wordsOf [] t
    else wordsOf (run ++ [c]) t

theorem treeWords_app (a b : List Word) : treeWords (a ++ b) = treeWords a ++ treeWords b := by
  induction a with
  | nil => rfl
  | cons x a ih => simp [treeWords, ih]

theorem printWords_app (nl) (a b : List Word) : printWords nl (a ++ b) = printWords nl a ++ printWords nl b := by
  induction a with
  | nil => rfl
  | cons x a ih => simp [printWords, ih]

theorem flatWords_app (a b : List Word) : flatWords (a ++ b) ↔ flatWords a ∧ flatWords b := by
  induction a with
  | nil => simp [flatWords]
  | cons x a ih => simp [flatWords, ih, and_assoc]

theorem plainL_app (a b : List Node) : plainL (a ++ b) = plainL a ++ plainL b := by
  induction a with
  | nil => rfl
  | cons x a ih => simp [plainL, ih]

theorem plainL_strs (l : List Str) : plainL (l.map .str) = l.flatten := by
  induction l with
  | nil => rfl
  | cons a l ih => simp [plainL, Node.plain, ih]

theorem wordsOf_plain : ∀ (l run : Str), plainL (treeWords (wordsOf run l)) = run ++ l
  | [], run => by
    unfold wordsOf; split
    · rename_i h; simp [List.isEmpty_iff] at h; subst h; rfl
    · simp [treeWords, plainL, Word.tree, Vl.tree, Node.plain]
  | c :: t, run => by
    unfold wordsOf; split
    · rw [treeWords_app, plainL_app]
      simp only [treeWords, Word.tree, Vl.tree, plainL, Node.plain, wordsOf_plain t]
      split
      · rename_i h; simp [List.isEmpty_iff] at h; subst h; rfl
      · simp [treeWords, plainL, Word.tree, Vl.tree, Node.plain]
    · rw [wordsOf_plain t]; simp

theorem wordsOf_strs : ∀ (l run : Str), AllStr (treeWords (wordsOf run l))
  | [], run => by
    unfold wordsOf; split
    · intro n hn; simp [treeWords] at hn
    · intro n hn; simp [treeWords, Word.tree, Vl.tree] at hn; exact ⟨_, hn⟩
  | c :: t, run => by
    unfold wordsOf; split
    · intro n hn
      rw [treeWords_app, List.mem_append] at hn
      rcases hn with hn | hn
      · split at hn
        · simp [treeWords] at hn
        · simp [treeWords, Word.tree, Vl.tree] at hn; exact ⟨_, hn⟩
      · simp only [treeWords, List.mem_cons, Word.tree, Vl.tree] at hn
        rcases hn with rfl | hn
        · exact ⟨_, rfl⟩
        · exact wordsOf_strs t [] n hn
    · exact wordsOf_strs t _

theorem wordsOf_print (nl : Str) : ∀ (l run : Str), printWords nl (wordsOf run l) = run ++ escape l
  | [], run => by
    unfold wordsOf escape; split
    · rename_i h; simp [List.isEmpty_iff] at h; subst h; rfl
    · simp [printWords, Word.print, Vl.print, printTrail]
  | c :: t, run => by
    unfold wordsOf escape; split
    · rw [printWords_app]
      simp only [printWords, Word.print, Vl.print, printTrail, wordsOf_print nl t]
      split
      · rename_i h; simp [List.isEmpty_iff] at h; subst h; simp [printWords]
      · simp [printWords, Word.print, Vl.print, printTrail]
    · rw [wordsOf_print nl t]; simp

theorem wordsOf_flat : ∀ (l run : Str), flatWords (wordsOf run l)
  | [], run => by unfold wordsOf; split <;> simp [flatWords, Word.flat, Vl.flat]
  | c :: t, run => by
    unfold wordsOf; split
    · rw [flatWords_app]
      refine ⟨by split <;> simp [flatWords, Word.flat, Vl.flat], ?_⟩
      simp [flatWords, Word.flat, Vl.flat, wordsOf_flat t]
    · exact wordsOf_flat t _

theorem wordsOf_ne : ∀ (l run : Str), run ++ l ≠ [] → wordsOf run l ≠ []
  | [], run, h => by simp at h; unfold wordsOf; simp [h]
  | c :: t, run, h => by
    unfold wordsOf; split
    · simp
    · exact wordsOf_ne t _ (by simp)

theorem noCmt_escape (run l : Str) (hr : ∀ c ∈ run, isText c = true) : noCmt (run ++ escape l) := by
  have key : ∀ l : Str, noCmt (escape l) := by
    intro l
    induction l with
    | nil => intro bl t _ e; simp [escape] at e
    | cons c l ih =>
      intro bl t hb e
      rw [escape] at e
      split at e
      · rename_i h
        cases bl with
        | nil => simp at e
        | cons b bl =>
          simp only [List.cons_append, List.cons.injEq] at e
          have := hb b (by simp)
          rw [← e.1] at this; simp [isBlank] at this
      · rename_i h
        cases bl with
        | nil => simp only [List.nil_append, List.cons.injEq] at e; rw [e.1] at h; simp [special] at h
        | cons b bl =>
          simp only [List.cons_append, List.cons.injEq] at e
          exact ih bl t (fun c hc => hb c (by simp [hc])) e.2
  induction run with
  | nil => exact key l
  | cons c run ih =>
    intro bl t hb e
    cases bl with
    | nil =>
      simp only [List.nil_append, List.cons_append, List.cons.injEq] at e
      have := hr c (by simp)
      rw [e.1] at this; simp [isText] at this
    | cons b bl =>
      simp only [List.cons_append, List.cons.injEq] at e
      exact ih (fun c hc => hr c (by simp [hc])) bl t (fun c hc => hb c (by simp [hc])) e.2

theorem special_text {c : Char} (h : special c = false) (h2 : c ≠ '\r' ∧ c ≠ '\n') : isText c = true := by
  simp [special] at h; simp [isText, h, h2]

theorem wordsOf_ok (nl : Str) : ∀ (l run : Str), (∀ c ∈ run, isText c = true) → (∀ c ∈ l, c ≠ '\r' ∧ c ≠ '\n') →
    okWords nl (wordsOf run l)
  | [], run, hr, _ => by
    unfold wordsOf; split
    · trivial
    · rename_i h
      simp [List.isEmpty_iff] at h
      have := noCmt_escape run [] hr
      simp only [escape, List.append_nil] at this
      simp only [okWords, Word.ok, Vl.ok, Vl.print, printTrail, printWords, List.append_nil, Vl.ends]
      exact ⟨⟨⟨h, hr⟩, this, by simp, noCmt_escape [] [] (by simp)⟩, trivial⟩
  | c :: t, run, hr, hl => by
    unfold wordsOf; split
    · rename_i hc
      have ht := wordsOf_ok nl t [] (by simp) (fun c hc => hl c (by simp [hc]))
      have hesc : okWords nl (.mk (.esc c) none :: wordsOf [] t) := by
        simp only [okWords, Word.ok, Vl.ok, Vl.print, printTrail, List.append_nil, Vl.ends, wordsOf_print, List.nil_append]
        refine ⟨⟨by simpa [special, or_assoc] using hc, ?_, trivial, noCmt_escape [] t (by simp)⟩, ht⟩
        have := noCmt_escape [] (c :: t) (by simp)
        simpa [escape, hc] using this
      split
      · exact hesc
      · rename_i h
        simp [List.isEmpty_iff] at h
        have h1 := noCmt_escape run (c :: t) hr
        have h2 := noCmt_escape [] (c :: t) (by simp)
        simp only [escape, hc, if_true, List.nil_append] at h1 h2
        refine ⟨?_, hesc⟩
        show Word.ok nl (printWords nl (.mk (.esc c) none :: wordsOf [] t)) _
        have hp : printWords nl (.mk (.esc c) none :: wordsOf [] t) = '\\' :: c :: escape t := by
          simp [printWords, Word.print, Vl.print, printTrail, wordsOf_print]
        simp only [hp, Word.ok, Vl.ok, Vl.print, printTrail, List.append_nil, Vl.ends]
        exact ⟨⟨h, hr⟩, h1, by simp [isText], h2⟩
    · rename_i hc
      refine wordsOf_ok nl t _ ?_ (fun c hc => hl c (by simp [hc]))
      intro d hd
      simp only [List.mem_append, List.mem_singleton] at hd
      rcases hd with hd | rfl
      · exact hr d hd
      · exact special_text (by simpa using hc) (hl d (by simp))

theorem escape_head {l : Str} (h : ∀ c ∈ l.head?, isBlank c = false) : ∀ c ∈ (escape l).head?, isBlank c = false := by
  intro c hc
  cases l with
  | nil => simp [escape] at hc
  | cons d l =>
    rw [escape] at hc
    split at hc
    · simp at hc; subst hc; rfl
    · simp at hc; subst hc; exact h d (by simp)

/-- The lines of a paragraph. -/
def linesOf (p : List Str) : List Line := p.map fun l => .mk [] none (wordsOf [] l)

/-- The paragraphs of a text. -/
def parasOf : List (List Str) → List Para
  | [] => []
  | [p] => [.mk (linesOf p) false []]
  | p :: q :: r => .mk (linesOf p) true [.nl] :: parasOf (q :: r)

theorem linesOf_ok {nl : Str} : ∀ {p : List Str}, (∀ l ∈ p, lineOk l) → okLines nl (linesOf p)
  | [], _ => trivial
  | l :: p, h => by
    obtain ⟨h1, h2, h3⟩ := h l (by simp)
    refine ⟨by intro c hc; simp at hc, by simp, wordsOf_ne l [] h1, fun _ => ?_, wordsOf_ok nl l [] (by simp) h2,
      linesOf_ok fun l hl => h l (by simp [hl])⟩
    rw [wordsOf_print]
    exact escape_head h3

theorem linesOf_print {nl : Str} : ∀ (p : List Str), p ≠ [] → printLines nl false (linesOf p) = joined nl (p.map escape)
  | [], h => absurd rfl h
  | [l], _ => by simp [linesOf, printLines, Line.print, printLead, wordsOf_print, joined]
  | l :: m :: p, _ => by
    have := linesOf_print (nl := nl) (m :: p) (by simp)
    simp only [linesOf, List.map_cons] at this ⊢
    rw [printLines, this]
    simp [Line.print, printLead, wordsOf_print, joined]

theorem linesOf_print' {nl : Str} : ∀ (p : List Str), p ≠ [] → printLines nl true (linesOf p) = joined nl (p.map escape) ++ nl
  | [], h => absurd rfl h
  | [l], _ => by simp [linesOf, printLines, Line.print, printLead, wordsOf_print, joined]
  | l :: m :: p, _ => by
    have := linesOf_print' (nl := nl) (m :: p) (by simp)
    simp only [linesOf, List.map_cons] at this ⊢
    rw [printLines, this]
    simp [Line.print, printLead, wordsOf_print, joined]

theorem parasOf_ok {nl : Str} : ∀ {text : List (List Str)}, (∀ p ∈ text, p ≠ [] ∧ ∀ l ∈ p, lineOk l) → okParas nl [] (parasOf text)
  | [], _ => trivial
  | [p], h => by
    obtain ⟨h1, h2⟩ := h p (by simp)
    refine ⟨by simpa [linesOf] using h1, ?_, linesOf_ok h2, ⟨by simp, Or.inl rfl⟩, by simp, by simp, trivial⟩
    cases p <;> simp [linesOf]
  | p :: q :: r, h => by
    obtain ⟨h1, h2⟩ := h p (by simp)
    refine ⟨by simpa [linesOf] using h1, ?_, linesOf_ok h2, ⟨by simp [Sp.ok], Or.inr ⟨[], rfl⟩⟩, by simp, by simp,
      parasOf_ok fun p hp => h p (by simp at hp ⊢; exact Or.inr hp)⟩
    cases p <;> simp [linesOf]

theorem parasOf_print {nl : Str} : ∀ (text : List (List Str)), (∀ p ∈ text, p ≠ []) →
    printParas nl (parasOf text) = proseSrc nl text
  | [], _ => rfl
  | [p], h => by
    simp [parasOf, printParas, Para.print, printSp, proseSrc, joined, linesOf_print p (h p (by simp))]
  | p :: q :: r, h => by
    have := parasOf_print (nl := nl) (q :: r) (fun p hp => h p (by simp at hp ⊢; exact Or.inr hp))
    simp only [proseSrc, List.map_cons] at this ⊢
    rw [parasOf, printParas, this]
    simp [Para.print, printSp, Sp.print, joined, linesOf_print' p (h p (by simp))]

theorem parasOf_tree : ∀ (text : List (List Str)),
    treeParas (parasOf text) = text.map fun p => .para (p.map fun l => treeWords (wordsOf [] l))
  | [] => rfl
  | [p] => by simp [parasOf, treeParas, Para.tree, linesOf_tree p]
  | p :: q :: r => by
    rw [parasOf, treeParas, parasOf_tree (q :: r)]
    simp [Para.tree, linesOf_tree p]
where
  linesOf_tree : ∀ p : List Str, treeLines (linesOf p) = p.map fun l => treeWords (wordsOf [] l)
    | [] => rfl
    | l :: p => by simpa [linesOf, treeLines, Line.tree] using linesOf_tree p

/-! Undoing `erase`. -/

theorem erase_str {t : Node} {s : Str} (h : t.erase = .str s) : t = .str s := by
  cases t <;> simp [Node.erase] at h; rw [h]

theorem erase_seq {t : Node} {ns} (h : t.erase = .seq ns) : ∃ ms, t = .seq ms ∧ eraseL ms = ns := by
  cases t <;> simp [Node.erase] at h; exact ⟨_, rfl, h⟩

theorem erase_para {t : Node} {ns} (h : t.erase = .para ns) : ∃ ms, t = .para ms ∧ eraseLL ms = ns := by
  cases t <;> simp [Node.erase] at h; exact ⟨_, rfl, h⟩

theorem erase_pre {t : Node} {ns} (h : t.erase = .pre ns) : ∃ ms, t = .pre ms ∧ eraseLL ms = ns := by
  cases t <;> simp [Node.erase] at h; exact ⟨_, rfl, h⟩

theorem erase_invoke {t : Node} {fn as l} (h : t.erase = .invoke fn as l) : ∃ bs loc, t = .invoke fn bs loc ∧ eraseL bs = as := by
  cases t <;> simp [Node.erase] at h; exact ⟨_, _, by rw [h.1], h.2.1⟩

theorem eraseL_map (l : List Node) : eraseL l = l.map Node.erase := by
  induction l with
  | nil => rfl
  | cons a l ih => simp [eraseL, ih]

theorem eraseLL_map (l : List (List Node)) : eraseLL l = l.map eraseL := by
  induction l with
  | nil => rfl
  | cons a l ih => simp [eraseLL, ih]

theorem eraseL_strs' {ms ns : List Node} (h : eraseL ms = ns) (hn : AllStr ns) : ms = ns := by
  induction ms generalizing ns with
  | nil => simpa [eraseL] using h
  | cons m ms ih =>
    subst h
    simp only [eraseL] at hn ⊢
    obtain ⟨u, hu⟩ := hn m.erase (by simp)
    rw [← ih rfl fun n h => hn n (by simp [h]), hu, erase_str hu]

theorem eraseLL_strs' {ms ns : List (List Node)} (h : eraseLL ms = ns) (hn : ∀ l ∈ ns, AllStr l) : ms = ns := by
  induction ms generalizing ns with
  | nil => simpa [eraseLL] using h
  | cons m ms ih =>
    subst h
    simp only [eraseLL] at hn ⊢
    rw [← ih rfl fun n h => hn n (by simp [h]), ← eraseL_strs' rfl (hn _ (by simp))]

theorem erase_singleCall {t : Node} {fn as l} (h : t.erase = .seq [.para [[.invoke fn as l]]]) :
    ∃ bs loc, t = .seq [.para [[.invoke fn bs loc]]] ∧ eraseL bs = as := by
  obtain ⟨ms, rfl, h1⟩ := erase_seq h
  rw [eraseL_map, List.map_eq_singleton_iff] at h1
  obtain ⟨m, rfl, h2⟩ := h1
  obtain ⟨ms, rfl, h3⟩ := erase_para h2
  rw [eraseLL_map, List.map_eq_singleton_iff] at h3
  obtain ⟨m, rfl, h4⟩ := h3
  rw [eraseL_map, List.map_eq_singleton_iff] at h4
  obtain ⟨m, rfl, h5⟩ := h4
  obtain ⟨bs, loc, rfl, h6⟩ := erase_invoke h5
  exact ⟨bs, loc, rfl, h6⟩

/-! A document that is one call. -/

def callDoc (fn : Str) (as : List Arg) : Doc := ⟨[], [.mk [.mk [] none [.mk (.call fn as) none]] false []]⟩

theorem callDoc_read {nl : Str} (hnl : IsNl nl) {fn : Str} {as : List Arg} (hfn : nameOk fn) (has : okArgs nl as) :
    ∃ bs loc, parseDoc ('\\' :: fn ++ printArgs nl as) = some (.ok (.node (.seq [.para [[.invoke fn bs loc]]]))) ∧
      eraseL bs = treeArgs as := by
  have hok : (callDoc fn as).ok nl := by
    refine ⟨by simp [callDoc], by simp [callDoc], ?_⟩
    refine ⟨by simp, by simp, ?_, ⟨by simp, Or.inl rfl⟩, by simp, by simp, trivial⟩
    refine ⟨by intro c hc; simp at hc, by simp, by simp, ?_, ?_, trivial⟩
    · intro _ c hc; simp [printWords, Word.print, Vl.print] at hc; subst hc; rfl
    · refine ⟨?_, trivial⟩
      simp only [Word.ok, Vl.ok, Vl.ends, printWords]
      refine ⟨⟨hfn.1, fun c hc => ?_, has⟩, ?_, by simp, ?_⟩
      · simpa [Vl.ends.isFnChar'] using hfn.2 c hc
      · intro bl t hb e
        cases bl with
        | nil => simp [Vl.print] at e
        | cons b bl =>
          simp [Vl.print] at e
          have := hb b (by simp)
          rw [← e.1] at this; simp [isBlank] at this
      · intro bl t hb e; simp at e
  obtain ⟨t, ht, he⟩ := read_doc hnl (callDoc fn as) hok
  have hp : (callDoc fn as).print nl = '\\' :: fn ++ printArgs nl as := by
    simp [callDoc, Doc.print, printSp, printParas, Para.print, printLines, Line.print, printLead, printWords, Word.print, Vl.print, printTrail]
  rw [hp] at ht
  obtain ⟨bs, loc, rfl, h⟩ := erase_singleCall (t := t) (fn := fn) (as := treeArgs as) (l := Location.zero) he
  exact ⟨bs, loc, ht, h⟩

theorem pieces_go_flatten : ∀ (t run : Str), (pieces.go run t).flatten = run.reverse ++ t
  | [], run => by
    unfold pieces.go; split
    · rename_i h; simp [List.isEmpty_iff] at h; subst h; rfl
    · simp
  | c :: t, run => by
    unfold pieces.go; split
    · rename_i h
      simp only [beq_iff_eq] at h; subst h
      split
      · rename_i h; simp [List.isEmpty_iff] at h; subst h; simp [pieces_go_flatten t]
      · simp [pieces_go_flatten t]
    · rw [pieces_go_flatten t]; simp

theorem pieces_flatten (t : Str) : (pieces t).flatten = t := by simpa [pieces] using pieces_go_flatten t []

theorem allStr_map (l : List Str) : AllStr (l.map .str) := by
  intro n hn; simp at hn; obtain ⟨a, _, rfl⟩ := hn; exact ⟨_, rfl⟩

/-- A block as a surface argument. -/
def Block.arg : Block → Arg
  | .verbatim ls => .vblock ls []
  | .preformatted ls => .pre (ls.map fun l => .mk l.1 (wordsOf [] l.2)) []

theorem printPLines_map (nl : Str) (ls : List BLine) :
    printPLines nl (ls.map fun l => .mk l.1 (wordsOf [] l.2)) = (ls.map fun l => l.1 ++ escape l.2 ++ nl).flatten := by
  induction ls with
  | nil => rfl
  | cons l ls ih => simp [printPLines, PLine.print, wordsOf_print, ih]

theorem Block.arg_print (nl : Str) (b : Block) : b.arg.print nl = b.src nl := by
  cases b with
  | verbatim ls => simp [Block.arg, Arg.print, Block.src, printVLines]
  | preformatted ls => simp [Block.arg, Arg.print, Block.src, printPLines_map]

theorem Block.arg_ok {nl : Str} {b : Block} (h : b.ok) : b.arg.ok nl := by
  cases b with
  | verbatim ls => exact ⟨h, by intro c hc; simp at hc⟩
  | preformatted ls =>
    refine ⟨?_, by intro c hc; simp at hc⟩
    simp only [Block.ok] at h
    induction ls with
    | nil => trivial
    | cons l ls ih =>
      obtain ⟨h1, h2, h3⟩ := h l (by simp)
      refine ⟨h1, ?_, wordsOf_ok nl _ [] (by simp) h3, wordsOf_flat _ _, ih fun l hl => h l (by simp [hl])⟩
      rw [wordsOf_print]; exact escape_head h2

theorem treePLines_map (k : Nat) (ls : List PLine) : treePLines k ls = ls.map (PLine.tree k) := by
  induction ls with
  | nil => rfl
  | cons l ls ih => simp [treePLines, ih]

/-- The tree of a block: one line of strings per source line, with the dedented text. -/
theorem Block.arg_tree (b : Block) : ∃ ls, b.arg.tree = .pre ls ∧ (∀ l ∈ ls, AllStr l) ∧ ls.map plainL = b.dedented := by
  cases b with
  | verbatim ls =>
    refine ⟨_, rfl, ?_, ?_⟩
    · intro l hl
      simp only [List.mem_map] at hl
      obtain ⟨x, _, rfl⟩ := hl
      intro n hn
      simp only [List.mem_cons] at hn
      rcases hn with rfl | hn
      · exact ⟨_, rfl⟩
      · exact allStr_map _ n hn
    · simp only [List.map_map, Block.dedented, Block.lines, baseOf]
      apply List.map_congr_left
      intro l _
      simp only [Function.comp, plainL, Node.plain, plainL_strs, pieces_flatten]
      cases ls <;> rfl
  | preformatted ls =>
    refine ⟨_, rfl, ?_, ?_⟩
    · intro l hl
      simp only [treePLines_map, List.mem_map] at hl
      obtain ⟨x, ⟨y, _, rfl⟩, rfl⟩ := hl
      intro n hn
      simp only [PLine.tree, List.mem_cons] at hn
      rcases hn with rfl | hn
      · exact ⟨_, rfl⟩
      · exact wordsOf_strs _ _ n hn
    · simp only [treePLines_map, List.map_map, Block.dedented, Block.lines, baseOf]
      apply List.map_congr_left
      intro l _
      simp only [Function.comp, PLine.tree, plainL, Node.plain, wordsOf_plain, List.nil_append]
      cases ls <;> rfl

end Booklit
