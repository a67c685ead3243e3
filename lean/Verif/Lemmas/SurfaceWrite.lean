import Verif.Lemmas.SurfaceBase
import Verif.Spec.Canon
import Verif.Spec.Syntax

/-!
Every canonical tree is the tree of a well-formed surface document.
-/

namespace Booklit

open Booklit.Src Booklit.Peg

/-- `w` writes the node `n`, whatever follows it. -/
def Writes (n : Node) (w : Word) : Prop :=
  w.tree = n.erase ∧ (n.noPre → w.flat) ∧
  ∀ nl, (∀ u, w.ok nl u) ∧ ∃ c t, w.print nl = c :: t ∧ isBlank c = false ∧ (c = '{' → t.head? ≠ some '{')

/-- Words written one after the other. -/
def WritesL (ns : List Node) (ws : List Word) : Prop :=
  treeWords ws = eraseL ns ∧ (noPreL ns → flatWords ws) ∧ (∀ nl, okWords nl ws) ∧
  ∀ nl, ∀ c ∈ (printWords nl ws).head?, isBlank c = false

theorem noCmt_of_ne {c : Char} {t : Str} (h1 : isBlank c = false) (h2 : c = '{' → t.head? ≠ some '-') : noCmt (c :: t) := by
  intro bl r hb e
  cases bl with
  | nil =>
    simp only [List.nil_append, List.cons.injEq] at e
    exact h2 e.1 (by rw [e.2]; rfl)
  | cons b bl =>
    simp only [List.cons_append, List.cons.injEq] at e
    have := hb b (by simp)
    rw [← e.1, h1] at this
    exact absurd this (by simp)

theorem writes_mk {n : Node} {v : Vl} {bl : Str} (ht : v.tree = n.erase) (hf : n.noPre → v.flat) (hb : allBlank bl)
    (hv : v.trailOk (bl, .nil)) (h : ∀ nl, v.ok nl ∧ ∃ c t, v.print nl = c :: t ∧ isBlank c = false ∧
      ∀ u, c = '{' → (t ++ u).head? ≠ some '-' ∧ (t ++ u).head? ≠ some '{') : Writes n (.mk v (some (bl, .nil))) := by
  refine ⟨by simpa only [Word.tree], by simpa only [Word.flat], fun nl => ?_⟩
  obtain ⟨h1, c, t, e, h2, h3⟩ := h nl
  constructor
  · intro u
    simp only [Word.ok, e, List.cons_append, List.append_assoc]
    exact ⟨h1, noCmt_of_ne h2 fun hc => (h3 _ hc).1, ⟨hb, trivial⟩, hv⟩
  · exact ⟨c, t ++ printTrail (some (bl, .nil)), by simp [Word.print, e], h2, fun hc => (h3 _ hc).2⟩

theorem ex_str {s : Str} (h : textOk s) : ∃ w, Writes (.str s) w := by
  rcases h with ⟨hne, ht⟩ | h
  · cases s with
    | nil => exact absurd rfl hne
    | cons c s =>
      have hc := ht c (by simp)
      have hc' : c ≠ '{' := by rintro rfl; simp [isText] at hc
      by_cases hb : isBlank c = true
      · refine ⟨_, writes_mk (v := .group (.mk (.text (c :: s)) none)) (bl := []) rfl (fun _ => trivial) (by intro c hc; simp at hc) trivial fun nl => ?_⟩
        refine ⟨?_, '{', c :: s ++ ['}'], ?_, rfl, fun u _ => ?_⟩
        · simp only [Vl.ok, Word.ok, Vl.print, printTrail, List.append_nil, Vl.ends]
          refine ⟨⟨by simp, ht⟩, ?_, by simp, ?_⟩
          · intro bl t _ e
            have : isText '{' = true := ht '{' (by rw [e]; simp)
            simp [isText] at this
          · intro bl t _ e; simp at e
        · simp [Vl.print, Word.print, printTrail]
        · have : c ≠ '-' := by rintro rfl; simp [isBlank] at hb
          simp [this, hc']
      · refine ⟨_, writes_mk (v := .text (c :: s)) (bl := []) rfl (fun _ => trivial) (by intro c hc; simp at hc) rfl fun nl => ?_⟩
        refine ⟨⟨by simp, ht⟩, c, s, rfl, by simpa using hb, fun u h => absurd h hc'⟩
  · have : ∃ c, s = [c] ∧ (c = '\\' ∨ c = '{' ∨ c = '}') := by
      rcases h with rfl | rfl | rfl <;> exact ⟨_, rfl, by simp⟩
    obtain ⟨c, rfl, hc⟩ := this
    refine ⟨_, writes_mk (v := .esc c) (bl := []) rfl (fun _ => trivial) (by intro c hc; simp at hc) trivial fun nl => ?_⟩
    exact ⟨hc, '\\', [c], rfl, rfl, fun u h => absurd h (by decide)⟩

/-- `a` writes the argument `n`. -/
def WritesA (n : Node) (a : Arg) : Prop := a.tree = n.erase ∧ (n.noPre → a.flat) ∧ ∀ nl, a.ok nl

def WritesAs (ns : List Node) (as : List Arg) : Prop :=
  treeArgs as = eraseL ns ∧ (noPreL ns → flatArgs as) ∧ ∀ nl, okArgs nl as

/-- `ps` writes the paragraphs `ns`, each ended by a blank line. -/
def WritesP (ns : List Node) (ps : List Para) : Prop :=
  treeParas ps = eraseL ns ∧ (noPreL ns → flatParas ps) ∧ (ns ≠ [] → ps ≠ []) ∧ ∀ nl, okParas nl [] ps

def WritesLn (n : List (List Node)) (ls : List Line) : Prop :=
  treeLines ls = eraseLL n ∧ (noPreLL n → flatLines ls) ∧ (n ≠ [] → ls ≠ []) ∧
    (∀ b c ws, ls.head? ≠ some (.mk b (some c) ws)) ∧ ∀ nl, okLines nl ls

def WritesPl (n : List (List Node)) (ls : List PLine) : Prop :=
  treePLines 0 ls = eraseLL n ∧ (∀ nl, okPLines nl ls) ∧
    ((∀ l ∈ n.head?, l.head? = some (.str [])) → baseOf (ls.map PLine.indent) = 0)

theorem eraseL_strs (l : List Str) : eraseL (l.map .str) = l.map .str := by
  induction l with
  | nil => rfl
  | cons a l ih => simp [eraseL, Node.erase, ih]

theorem eraseLL_lines (l : List (Str × Str)) (f : Str × Str → Str) (g : Str × Str → List Str) :
    eraseLL (l.map fun x => .str (f x) :: (g x).map .str) = l.map fun x => .str (f x) :: (g x).map .str := by
  induction l with
  | nil => rfl
  | cons a l ih => simp [eraseL, eraseLL, Node.erase, ih, eraseL_strs]

theorem inline_of {n : Node} {ns : List Node} {w : Word} {ws : List Word} (h : Writes n w) (hs : WritesL ns ws) :
    WritesA (.seq (n :: ns)) (.inline w (ws.map .word)) := by
  have ht : ∀ ws : List Word, treePieces (ws.map .word) = treeWords ws := by
    intro ws; induction ws with
    | nil => rfl
    | cons w ws ih => simp [treePieces, treeWords, Piece.tree, ih]
  have hf : ∀ ws : List Word, flatPieces (ws.map .word) ↔ flatWords ws := by
    intro ws; induction ws with
    | nil => rfl
    | cons w ws ih => simp [flatPieces, flatWords, Piece.flat, ih]
  have hp : ∀ nl (ws : List Word), printPieces nl (ws.map .word) = printWords nl ws := by
    intro nl ws; induction ws with
    | nil => rfl
    | cons w ws ih => simp [printPieces, printWords, Piece.print, ih]
  have ho : ∀ nl (ws : List Word), okPieces nl (ws.map .word) ↔ okWords nl ws := by
    intro nl ws; induction ws with
    | nil => simp [okPieces, okWords]
    | cons w ws ih => simp [okPieces, okWords, ih, hp]
  refine ⟨by simp [Arg.tree, Node.erase, eraseL, h.1, hs.1, ht], ?_, ?_⟩
  · simp only [Node.noPre, noPreL, Arg.flat, hf]
    exact fun h' => ⟨h.2.1 h'.1, hs.2.1 h'.2⟩
  · intro nl
    obtain ⟨h1, c, t, e, h2, h3⟩ := h.2.2 nl
    refine ⟨h1 _, (ho _ _).mpr (hs.2.2.1 nl), ?_⟩
    rintro ⟨t', e'⟩
    rw [e] at e'
    simp only [List.cons.injEq] at e'
    exact h3 e'.1 (by rw [e'.2]; rfl)

mutual
theorem ex_word : ∀ n : Node, n.isWord → ∃ w, Writes n w
  | .str s, h => ex_str (by simpa only [Node.isWord] using h)
  | .invoke fn args loc, h => by
    simp only [Node.isWord] at h
    obtain ⟨as, h1, h2, h3⟩ := ex_args args h.2
    refine ⟨_, writes_mk (v := .call fn as) (bl := [' ']) (by simp [Vl.tree, Node.erase, h1])
      (by simpa only [Node.noPre, Vl.flat] using h2) (by simp [allBlank, isBlank]) (by simp [Vl.trailOk]) fun nl => ?_⟩
    refine ⟨?_, '\\', fn ++ printArgs nl as, by simp [Vl.print], rfl, fun u h => absurd h (by decide)⟩
    simp only [Vl.ok]
    refine ⟨h.1.1, fun c hc => ?_, h3 nl⟩
    simpa [Vl.ends.isFnChar'] using h.1.2 c hc
  | .seq ns, h => by
    simp only [Node.isWord] at h
    subst h
    refine ⟨_, writes_mk (v := .empty) (bl := []) rfl (fun _ => trivial) (by intro c hc; simp at hc) trivial fun nl => ?_⟩
    exact ⟨trivial, '{', ['}'], rfl, rfl, fun u _ => by simp⟩
  | .para _, h => by simp [Node.isWord] at h
  | .pre _, h => by simp [Node.isWord] at h

theorem ex_words : ∀ ns : List Node, allWords ns → ∃ ws, WritesL ns ws ∧ (ns ≠ [] → ws ≠ [])
  | [], _ => ⟨[], ⟨rfl, fun _ => trivial, fun _ => trivial, by simp [printWords]⟩, by simp⟩
  | n :: ns, h => by
    simp only [allWords] at h
    obtain ⟨w, hw⟩ := ex_word n h.1
    obtain ⟨ws, hws, _⟩ := ex_words ns h.2
    refine ⟨w :: ws, ⟨by simp [treeWords, eraseL, hw.1, hws.1], ?_, ?_, ?_⟩, by simp⟩
    · simp only [noPreL, flatWords]
      exact fun h => ⟨hw.2.1 h.1, hws.2.1 h.2⟩
    · intro nl
      exact ⟨(hw.2.2 nl).1 _, hws.2.2.1 nl⟩
    · intro nl c hc
      obtain ⟨_, d, t, e, h2, _⟩ := hw.2.2 nl
      simp [printWords, e] at hc
      rw [← hc]; exact h2

theorem ex_arg : ∀ n : Node, n.isArg → ∃ a, WritesA n a
  | .str s, h => by
    simp only [Node.isArg] at h
    subst h
    exact ⟨.blank [], rfl, fun _ => trivial, fun _ => ⟨by simp, Or.inl rfl⟩⟩
  | .invoke _ _ _, h => by simp [Node.isArg] at h
  | .seq ns, h => by
    simp only [Node.isArg] at h
    rcases h with ⟨hne, h⟩ | ⟨hne, h⟩ | ⟨t, h1, h2, rfl⟩
    · cases ns with
      | nil => exact absurd rfl hne
      | cons n ns =>
        simp only [allWords] at h
        obtain ⟨w, hw⟩ := ex_word n h.1
        obtain ⟨ws, hws, _⟩ := ex_words ns h.2
        exact ⟨_, inline_of hw hws⟩
    · obtain ⟨ps, h1, h2, h3, h4⟩ := ex_paras ns h
      refine ⟨.paras [.nl] ps [], by simp [Arg.tree, Node.erase, h1], by simpa only [Node.noPre, Arg.flat] using h2, fun nl => ?_⟩
      exact ⟨by simp, ⟨by simp [Sp.ok], Or.inr ⟨[], rfl⟩⟩, h3 hne, h4 nl, by intro c hc; simp at hc⟩
    · refine ⟨.verb t, by simp [Arg.tree, Node.erase, eraseL_strs], fun _ => trivial, fun nl => ⟨h1.1, h1.2, h2⟩⟩
  | .para _, h => by simp [Node.isArg] at h
  | .pre ls, h => by
    simp only [Node.isArg] at h
    rcases h with ⟨h, hz⟩ | ⟨ts, h1, h2, rfl⟩
    · obtain ⟨ps, e1, e2, e3⟩ := ex_plines ls h
      refine ⟨.pre ps [], by simp [Arg.tree, Node.erase, e3 hz, e1], by simp [Node.noPre], fun nl => ⟨e2 nl, by intro c hc; simp at hc⟩⟩
    · have hb : baseOf (ts.map Prod.fst) = 0 := by
        cases ts with
        | nil => rfl
        | cons l ts => simp [baseOf, h2 l (by simp)]
      refine ⟨.vblock ts [], ?_, by simp [Node.noPre], fun nl => ⟨fun l hl => ?_, by intro c hc; simp at hc⟩⟩
      · simp [Arg.tree, Node.erase, hb, eraseLL_lines (f := Prod.fst) (g := fun l => pieces l.2)]
      · obtain ⟨a, b, c, d⟩ := h1 l hl
        exact ⟨a, b, c, d⟩

theorem ex_args : ∀ ns : List Node, allArgs ns → ∃ as, WritesAs ns as
  | [], _ => ⟨[], rfl, fun _ => trivial, fun _ => trivial⟩
  | n :: ns, h => by
    simp only [allArgs] at h
    obtain ⟨a, ha⟩ := ex_arg n h.1
    obtain ⟨as, has⟩ := ex_args ns h.2
    refine ⟨a :: as, by simp [treeArgs, eraseL, ha.1, has.1], ?_, fun nl => ⟨ha.2.2 nl, has.2.2 nl⟩⟩
    simp only [noPreL, flatArgs]
    exact fun h => ⟨ha.2.1 h.1, has.2.1 h.2⟩

theorem ex_para : ∀ n : Node, n.isPara → ∃ ls, n.erase = .para (treeLines ls) ∧ (n.noPre → flatLines ls) ∧ ls ≠ [] ∧
    (∀ b c ws, ls.head? ≠ some (.mk b (some c) ws)) ∧ ∀ nl, okLines nl ls
  | .para ls, h => by
    simp only [Node.isPara] at h
    obtain ⟨l, h1, h2, h3, h4, h5⟩ := ex_lines ls h.2
    exact ⟨l, by simp [Node.erase, h1], by simpa only [Node.noPre] using h2, h3 h.1, h4, h5⟩
  | .str _, h => by simp [Node.isPara] at h
  | .invoke _ _ _, h => by simp [Node.isPara] at h
  | .seq _, h => by simp [Node.isPara] at h
  | .pre _, h => by simp [Node.isPara] at h

theorem ex_paras : ∀ ns : List Node, allParas ns → ∃ ps, WritesP ns ps
  | [], _ => ⟨[], rfl, fun _ => trivial, by simp, fun _ => trivial⟩
  | n :: ns, h => by
    simp only [allParas] at h
    obtain ⟨ls, h1, h2, h3, h4, h5⟩ := ex_para n h.1
    obtain ⟨ps, g1, g2, g3, g4⟩ := ex_paras ns h.2
    refine ⟨.mk ls true [.nl] :: ps, by simp [treeParas, Para.tree, eraseL, h1, g1], ?_, by simp, fun nl => ?_⟩
    · simp only [noPreL, flatParas, Para.flat]
      exact fun h => ⟨h2 h.1, g2 h.2⟩
    · exact ⟨h3, h4, h5 nl, ⟨by simp [Sp.ok], Or.inr ⟨[], rfl⟩⟩, by simp, by simp, g4 nl⟩

theorem ex_lines : ∀ ns : List (List Node), allLines ns → ∃ ls, WritesLn ns ls
  | [], _ => ⟨[], rfl, fun _ => trivial, by simp, by simp, fun _ => trivial⟩
  | l :: ns, h => by
    simp only [allLines] at h
    obtain ⟨ws, ⟨h1, h2, h3, h4⟩, h5⟩ := ex_words l h.1.2
    obtain ⟨ls, g1, g2, _, _, g3⟩ := ex_lines ns h.2
    refine ⟨.mk [] none ws :: ls, by simp [treeLines, Line.tree, eraseLL, h1, g1], ?_, by simp, by simp, fun nl => ?_⟩
    · simp only [noPreLL, flatLines, Line.flat]
      exact fun h => ⟨h2 h.1, g2 h.2⟩
    · exact ⟨by intro c hc; simp at hc, by simp, h5 h.1.1, fun _ => h4 nl, h3 nl, g3 nl⟩

theorem ex_plines : ∀ ns : List (List Node), allPLines ns → ∃ ls, WritesPl ns ls
  | [], _ => ⟨[], rfl, fun _ => trivial, fun _ => rfl⟩
  | [] :: ns, h => by simp [allPLines] at h
  | (i :: l) :: ns, h => by
    simp only [allPLines] at h
    obtain ⟨⟨⟨b, rfl, hb⟩, hw, hn⟩, hr⟩ := h
    obtain ⟨ws, ⟨h1, h2, h3, h4⟩, _⟩ := ex_words l hw
    obtain ⟨ls, g1, g2, _⟩ := ex_plines ns hr
    refine ⟨.mk b ws :: ls, by simp [treePLines, PLine.tree, eraseLL, eraseL, Node.erase, h1, g1], fun nl => ?_, ?_⟩
    · exact ⟨hb, h4 nl, h3 nl, h2 hn, g2 nl⟩
    · intro h; simp at h; simp [baseOf, PLine.indent, h]
end

end Booklit
