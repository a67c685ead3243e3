import Verif.Lemmas.SafeFile
import Verif.Props.Calls
import Verif.Props.Load

/-!
C35 and C36: loading does not crash, and ends.
-/

namespace Booklit.Props

open Booklit

/-- Files with these texts, and no plugin but baselit. -/
def plainFiles (files : List (Str × Str)) : World where
  fs := fun p => (files.lookup p).map fun t => ⟨1, some t⟩
  registry := fun _ => none
  foreign := fun _ _ => none
  brokenOk := false

/-- A file with this text. -/
def plainFile (text : Str) : World := plainFiles [(q%"x.lit", text)]

/-- The nodes of the files. -/
def fileNodes (files : List (Str × Str)) : List (Str × Node) :=
  files.filterMap fun f => match parseFile f.1 ⟨1, some f.2⟩ with
    | .ok n => some (f.1, n)
    | _ => none

theorem wrote_mem {files : List (Str × Str)} {p : Str} {n : Node} (h : (plainFiles files).Wrote p n) : (p, n) ∈ fileNodes files := by
  obtain ⟨info, hf, hp⟩ := h
  simp only [plainFiles, Option.map_eq_some_iff] at hf
  obtain ⟨t, ht, rfl⟩ := hf
  have hm : (p, t) ∈ files := by
    clear hp
    induction files with
    | nil => cases ht
    | cons f fs ih =>
      obtain ⟨a, b⟩ := f
      rw [List.lookup_cons] at ht
      split at ht
      · next e => cases ht; rw [beq_iff_eq] at e; subst e; exact List.mem_cons_self
      · exact List.mem_cons_of_mem _ (ih ht)
  rw [fileNodes, List.mem_filterMap]
  exact ⟨(p, t), hm, by simp only [hp]⟩

theorem plainFiles_tame {files : List (Str × Str)} (h : (fileNodes files).all (fun f => f.2.tame) = true) : (plainFiles files).tame :=
  fun _ _ hw => List.all_eq_true.1 h _ (wrote_mem hw)

theorem plainFiles_baseOnly (files : List (Str × Str)) : (plainFiles files).baseOnly := fun _ _ => rfl

/-! ### C35 -/

/-- **C35** (partial): when only baselit is used and in every file each argument of a call that is used as content or
text gives some content, titles that make their own tag contain no bare `\reference` or `\target`, and neither do texts,
loading ends in a section or an error, but does not crash. `World.tame` is a condition on the parsed files. Left out are
the documents that do crash, see `C35_false`. -/
theorem C35_no_crash_partial {W : World} (hW : W.baseOnly) (ht : W.tame) {s : St} (hs : Reach W s) (n : Nat) (parent : Option Nat)
    (path : Str) (plugins : List Nat) (hp : path ≠ [] ∨ parent = none) (hpar : ∀ p, parent = some p → p < s.heap.length)
    (h0 : plugins.head? = some 0) : (loadFile W n parent path plugins s).1 ≠ .panic := by
  obtain ⟨_, hr⟩ := evalFile_safe hW ht n parent path plugins hp h0 s ⟨hs.sound, hs.cacheOk⟩ hpar
  have hh := evalFile_heapOk (contentInv_solid (solidPlugins hW)) (n := n) (parent := parent) (path := path) (plugins := plugins)
    (hs.heapOk (contentInv_solid (solidPlugins hW)))
  have hr := hr.eq.2.1
  rw [loadFile_run]
  revert hr hh
  cases evalFile W n parent path plugins s with
  | mk r s1 =>
    intro hh hr
    cases r with
    | ok i =>
      have := (collect_noPanic n s1.heap i hh).1
      dsimp only
      cases hc : s1.heap.collect n i with
      | panic => exact absurd hc this
      | _ => simp
    | err e => simp
    | panic => exact absurd rfl hr
    | more => simp

/-- A test for crashes. -/
def crashes {α : Type} : Res α → Bool
  | .panic => true
  | _ => false

theorem crashes_iff {α : Type} {r : Res α} (h : crashes r = true) : r = .panic := by
  cases r with
  | panic => rfl
  | _ => cases h

/-- Documents that crash: an argument without content, a call that returns nothing as argument, and a title whose tag
cannot be made from its text. -/
def crashing : List Str :=
  [q%"\\italic{{}}\n", q%"\\italic{\\split-sections}\n", q%"\\code{{{}}}\n", q%"\\title{Foo\\target{bar}}\n", q%"\\list{a}{{}}\n", q%"\\link{a}{{}}\n"]

/-- **C35** is false as stated: there are documents that crash the evaluator. -/
theorem C35_false : ∀ text ∈ crashing,
    (plainFile text).baseOnly ∧ (loadFile (plainFile text) 5 none q%"x.lit" [0] ⟨[], []⟩).1 = .panic := by
  have h : (crashing.all fun text => crashes (loadFile (plainFile text) 5 none q%"x.lit" [0] ⟨[], []⟩).1) = true := by decide +kernel
  exact fun text ht => ⟨plainFiles_baseOnly _, crashes_iff (List.all_eq_true.1 h text ht)⟩

/-- Files that use most of baselit. -/
def tameFiles : List (Str × Str) :=
  [(q%"x.lit", q%"\\title{A \\bold{title}}\n\nSee \\reference{b}, \\link{here}{http://x}.\n\n\\list{one}{two}\n\n\\section{\n  \\title{B \\reference{x}}{b}\n\n  \\target{t}{T}\n}\n\n\\include-section{d/y.lit}\n"),
   (q%"d/y.lit", q%"\\title{Y}\n\n\\code{{{\n  x\n}}}\n\n\\include-section{../z.lit}\n"),
   (q%"z.lit", q%"\\title{Z}\n\n\\table-of-contents\n")]

theorem tameFiles_tame : (plainFiles tameFiles).tame := plainFiles_tame (by decide +kernel)

-- The theorem applies to files that use most of baselit, and they load.
example : (loadFile (plainFiles tameFiles) 9 none q%"x.lit" [0] ⟨[], []⟩).1 ≠ .panic :=
  C35_no_crash_partial (plainFiles_baseOnly _) tameFiles_tame .start 9 none _ _ (.inr rfl) (by simp) rfl

example : okAnd (loadFile (plainFiles tameFiles) 9 none q%"x.lit" [0] ⟨[], []⟩) (fun i s => (s.heap.get i).children.length == 2) = true := by
  decide +kernel

/-! ### C36 -/

/-- Loading ends if there are only short chains of includes. -/
theorem short_ends {W : World} (hW : W.baseOnly) {s : St}
    (hs : Reach W s) (parent : Option Nat) (path : Str) (plugins : List Nat) {m : Nat} (hm : W.Short (m + 1) path)
    (hp : path ≠ [] ∨ parent = none)
    (hpar : ∀ p, parent = some p → p < s.heap.length) (h0 : plugins.head? = some 0) :
    ∃ r N, r.1 ≠ .more ∧ r.1 ≠ .panic ∧ ∀ n, N ≤ n → loadFile W n parent path plugins s = r := by
  have hg : Good W s := ⟨hs.sound, hs.cacheOk⟩
  have hsame : ∀ n, m + 1 ≤ n → evalFile W n parent path plugins s = evalFile W (m + 1) parent path plugins s := by
    intro n hn
    obtain ⟨k, rfl⟩ : ∃ k, n = k + 1 := ⟨n - 1, by omega⟩
    obtain ⟨h1, _, h2⟩ := evalFile_ends hW (m + 1) parent path plugins hm hp h0 k m (by omega)
      (Nat.le_refl _) s hg hpar
    exact Prod.ext h2.eq.1 h1
  obtain ⟨_, _, h2⟩ := evalFile_ends hW (m + 1) parent path plugins hm hp h0 m m (Nat.le_refl _)
    (Nat.le_refl _) s hg hpar
  have hm' : (evalFile W (m + 1) parent path plugins s).1 ≠ .more := fun h => h2.eq.2.2 h
  have hnp := h2.eq.2.1
  have hh := evalFile_heapOk (contentInv_solid (solidPlugins hW)) (n := m + 1) (parent := parent) (path := path) (plugins := plugins)
    (hs.heapOk (contentInv_solid (solidPlugins hW)))
  clear h2
  cases he : evalFile W (m + 1) parent path plugins s with
  | mk r s1 =>
    rw [he] at hm' hh hnp
    cases r with
    | more => exact absurd rfl hm'
    | panic => exact absurd rfl hnp
    | err e =>
      refine ⟨(.err e, s1), m + 1, by simp, by simp, fun n hn => ?_⟩
      rw [loadFile_run, hsame n hn, he]
    | ok i =>
      obtain ⟨_, t, hroot, _, hkids, hids⟩ := evalFile_tree he
      have hT : ∀ j, ∃ ts, (s1.heap.get j).targets = some ts := fun j => HeapOk.targets hh j
      obtain ⟨N, hN⟩ := collect_tree (fun j => ((s1.heap.get j).targets).getD []) t
      refine ⟨(.ok i, { s1 with heap := s1.heap.addAll (fun j => ((s1.heap.get j).targets).getD []) t.ids }), N + (m + 1), by simp,
        by simp, fun n hn => ?_⟩
      rw [loadFile_run, hsame n (by omega), he]
      dsimp only
      rw [← hroot, hN n (by omega) s1.heap hkids fun j _ => ?_]
      obtain ⟨ts, hts⟩ := hT j
      rw [hts]
      rfl

/-- **C36** (partial): if every file includes only files of lower rank, loading ends: with enough fuel the outcome is
always the same section or error. Documents as in `C35_no_crash_partial`; left out are those whose load does not end
although nothing is included, see `C36_false`. -/
theorem C36_loading_ends_partial {W : World} (hW : W.baseOnly) (ht : W.tame) {rank : Str → Nat} (hr : W.acyclic rank) {s : St}
    (hs : Reach W s) (parent : Option Nat) (path : Str) (plugins : List Nat) (hp : path ≠ [] ∨ parent = none)
    (hpar : ∀ p, parent = some p → p < s.heap.length) (h0 : plugins.head? = some 0) :
    ∃ r N, r.1 ≠ .more ∧ r.1 ≠ .panic ∧ ∀ n, N ≤ n → loadFile W n parent path plugins s = r := by
  exact short_ends hW hs parent path plugins (hr.short ht _ (Nat.lt_succ_self _)) hp hpar h0

theorem plainFiles_acyclic {files : List (Str × Str)} {rank : Str → Nat} (h : (fileNodes files).all (fun f => f.2.includes.all fun a =>
    match a.literal with
    | some t => decide (rank (joinPath (dirPath f.1) t) < rank f.1)
    | none => false) = true) : (plainFiles files).acyclic rank := by
  intro p n hw a ha
  have := List.all_eq_true.1 (List.all_eq_true.1 h _ (wrote_mem hw)) a ha
  dsimp only at this
  split at this
  · next t ht => exact ⟨t, ht, of_decide_eq_true this⟩
  · cases this

/-- A rank for the sample files. -/
def tameRank (p : Str) : Nat := if p = q%"x.lit" then 2 else if p = q%"d/y.lit" then 1 else 0

-- The theorem applies to the sample files.
example : ∃ r N, r.1 ≠ .more ∧ r.1 ≠ .panic ∧ ∀ n, N ≤ n → loadFile (plainFiles tameFiles) n none q%"x.lit" [0] ⟨[], []⟩ = r :=
  C36_loading_ends_partial (plainFiles_baseOnly _) tameFiles_tame (rank := tameRank) (plainFiles_acyclic (by decide +kernel)) .start none _ _
    (.inr rfl) (by simp) rfl


/-- A document whose load does not end. -/
def loopText : Str := q%"\\section{\\title{\\reference{a}}{a}}\n\n\\link{x}{\\reference{a}}\n"
theorem more_bind {α β : Type} {m : M α} {f : α → M β} {s : St} (h : (m s).1 = .more) : ((m >>= f) s).1 = .more := by
  rw [M.bind_run, M.bind]
  revert h
  cases m s with
  | mk r s' => cases r <;> simp

theorem more_step {α β : Type} {m : M α} {f : α → M β} {s s' : St} {a : α} (h : m s = (.ok a, s')) (hf : (f a s').1 = .more) :
    ((m >>= f) s).1 = .more := by
  rw [M.bind_run, M.bind, h]
  exact hf

/-- Its file. -/
def loopW : World := plainFile loopText

/-- The section with a title that refers to itself. -/
def loopSection : Node :=
  .para [[.invoke q%"section" [.seq [.invoke q%"title" [.seq [.invoke q%"reference" [.seq [.str q%"a"]] ⟨1, 17, 16⟩], .seq [.str q%"a"]]
    ⟨1, 10, 9⟩]] ⟨1, 1, 0⟩]]

/-- The call that needs its text. -/
def loopLink : Node := .para [[.invoke q%"link" [.seq [.str q%"x"], .seq [.invoke q%"reference" [.seq [.str q%"a"]] ⟨3, 10, 45⟩]] ⟨3, 1, 36⟩]]

/-- The sections when a call at some location is evaluated. -/
def loopHeap (loc : Location) : Heap :=
  [{ Sec.fresh none q%"x.lit" with plugins := [0], invokeLoc := loc, children := [1] },
   { Sec.fresh (some 0) [] with
     plugins := [0], loc := ⟨1, 1, 0⟩, invokeLoc := ⟨1, 17, 16⟩, titleLoc := ⟨1, 17, 16⟩
     title := .ref 1 q%"a" .nil false ⟨1, 17, 16⟩
     tags := [⟨q%"a", .ref 1 q%"a" .nil false ⟨1, 17, 16⟩, some 1, [], .nil, ⟨1, 17, 16⟩⟩]
     primaryTag := ⟨q%"a", .ref 1 q%"a" .nil false ⟨1, 17, 16⟩, some 1, [], .nil, ⟨1, 17, 16⟩⟩ }]

theorem loop_title (loc : Location) : ∀ n, (loopHeap loc).text false n (.ref 1 q%"a" .nil false ⟨1, 17, 16⟩) = .more
  | 0 => rfl
  | 1 => rfl
  | 2 => rfl
  | 3 => rfl
  | 4 => rfl
  | 5 => rfl
  | n + 6 => loop_title loc (n + 5)

theorem loop_text (loc loc' : Location) : ∀ n, (loopHeap loc).text false n (.ref 0 q%"a" .nil false loc') = .more
  | 0 => rfl
  | 1 => rfl
  | 2 => rfl
  | 3 => rfl
  | 4 => rfl
  | 5 => rfl
  | n + 6 => loop_title loc (n + 5)

theorem loop_link (n : Nat) (loc : Location) : (evalNode loopW (n + 1) (incl loopW (n + 1)) loopLink 0 .nil ⟨loopHeap loc, []⟩).1 = .more := by
  unfold loopLink
  rw [evalNode, evalLines]
  refine more_bind (more_bind ?_)
  rw [evalSeq]
  refine more_bind ?_
  rw [evalNode, invokeFn]
  refine more_step (s' := ⟨loopHeap ⟨3, 1, 36⟩, []⟩) (a := ()) rfl ?_
  refine more_step (s' := ⟨loopHeap ⟨3, 1, 36⟩, []⟩) (a := q%"x.lit") rfl ?_
  refine more_step (s' := ⟨loopHeap ⟨3, 1, 36⟩, []⟩) (a := ⟨loopHeap ⟨3, 1, 36⟩, []⟩) rfl ?_
  refine more_bind (m := convertAll loopW (n + 1) 0 [.content, .string] none _) ?_
  rw [evalArgs, evalArgs, convertAll]
  refine more_step (s' := ⟨loopHeap ⟨3, 1, 36⟩, []⟩) (a := .content (.str q%"x")) rfl ?_
  rw [convertAll]
  refine more_bind (more_bind ?_)
  simp only [convert]
  refine more_step (s' := ⟨loopHeap ⟨3, 10, 45⟩, []⟩) (a := .ref 0 q%"a" .nil false ⟨3, 10, 45⟩) rfl ?_
  refine more_step (s' := ⟨loopHeap ⟨3, 10, 45⟩, []⟩) (a := ⟨loopHeap ⟨3, 10, 45⟩, []⟩) rfl ?_
  refine more_bind ?_
  exact loop_text _ _ _

theorem more_file {W : World} {k : Nat} {parent : Option Nat} {path : Str} {plugins : List Nat} {s : St} {info : FileInfo} {node : Node}
    (hf : W.fs path = some info) (hn : nodeOf s path info = .ok node)
    (h : (evalBody (evalNode W k (incl W k) node) s.heap.length (s.file parent path plugins)).1 = .more) :
    (evalFile W (k + 1) parent path plugins s).1 = .more := by
  rw [evalFile_run, hf]
  dsimp only
  rw [hn]
  dsimp only
  revert h
  cases evalBody (evalNode W k (incl W k) node) s.heap.length (s.file parent path plugins) with
  | mk r s => intro h; cases h; rfl

theorem loop_body : ∀ n, (evalBody (evalNode loopW n (incl loopW n) (.seq [loopSection, loopLink])) 0
    ((⟨[], []⟩ : St).file none q%"x.lit" [0])).1 = .more
  | 0 => by rfl
  | n + 1 => by
    rw [evalBody]
    refine more_bind ?_
    rw [evalNode, evalSeq]
    refine more_step (s' := ⟨loopHeap ⟨1, 1, 0⟩, []⟩) (a := .nil) rfl ?_
    rw [evalSeq]
    exact more_bind (loop_link n _)

set_option maxRecDepth 100000 in
theorem loop_parse : parseFile q%"x.lit" ⟨1, some loopText⟩ = .ok (.seq [loopSection, loopLink]) := by rfl

theorem loop_load : ∀ n, (loadFile loopW n none q%"x.lit" [0] ⟨[], []⟩).1 = .more
  | 0 => rfl
  | n + 1 => by
    rw [loadFile]
    exact more_bind (more_file (info := ⟨1, some loopText⟩) rfl loop_parse (loop_body n))

/-- **C36** is false as stated: loading this single file, which includes nothing, never ends. The title of its section
is a reference to the section itself, and `\\link` needs the text of it. -/
theorem C36_false : (plainFile loopText).baseOnly ∧ (plainFile loopText).acyclic (fun _ => 0) ∧
    ∀ n, (loadFile (plainFile loopText) n none q%"x.lit" [0] ⟨[], []⟩).1 = .more :=
  ⟨plainFiles_baseOnly _, plainFiles_acyclic (by decide +kernel), loop_load⟩

/-- A file that includes itself. -/
def cycleW : World := plainFile q%"\\include-section{x.lit}\n"

theorem cycle_parse : parseFile q%"x.lit" ⟨1, some q%"\\include-section{x.lit}\n"⟩ =
    .ok (.seq [.para [[.invoke q%"include-section" [.seq [.str q%"x.lit"]] ⟨1, 1, 0⟩]]]) := by rfl

theorem cycle_file : ∀ (n : Nat) (parent : Option Nat) (plugins : List Nat) (s : St), Good cycleW s →
    (∀ p, parent = some p → p < s.heap.length) → plugins.head? = some 0 → (evalFile cycleW n parent q%"x.lit" plugins s).1 = .more
  | 0, _, _, _, _, _, _ => rfl
  | n + 1, parent, plugins, s, hs, hpar, h0 => by
    have hf : cycleW.fs q%"x.lit" = some ⟨1, some q%"\\include-section{x.lit}\n"⟩ := rfl
    have hn : nodeOf s q%"x.lit" ⟨1, some q%"\\include-section{x.lit}\n"⟩ =
        .ok (.seq [.para [[.invoke q%"include-section" [.seq [.str q%"x.lit"]] ⟨1, 1, 0⟩]]]) := by
      cases hc : cached s.cache q%"x.lit" 1 with
      | none => simp only [nodeOf, hc]; exact cycle_parse
      | some m =>
        simp only [nodeOf, hc]
        obtain ⟨info, h1, h2⟩ := hs.cache.cached hc
        rw [hf] at h1
        cases h1
        rw [cycle_parse] at h2
        cases h2
        rfl
    refine more_file hf hn ?_
    have e0 : Heap.get (s.file parent q%"x.lit" plugins).heap s.heap.length =
        { Sec.fresh parent q%"x.lit" with plugins := plugins } := Heap.get_append_eq _ _
    have hok : Ok cycleW.Wrote q%"x.lit" s.heap.length (s.file parent q%"x.lit" plugins) := by
      refine ⟨by simp [St.file], hs.sound.add _ hpar h0, hs.cache, ?_⟩
      have : FileOf (s.file parent q%"x.lit" plugins).heap s.heap.length
          (Heap.get (s.file parent q%"x.lit" plugins).heap s.heap.length).path := .own (by rw [e0]; simp [Sec.fresh])
      rw [e0] at this
      exact this
    have hok2 := hok.upd (j := s.heap.length) (fun x => { x with invokeLoc := ⟨1, 1, 0⟩ }) fun x => ⟨rfl, rfl, id⟩
    generalize hi : s.heap.length = i at hok hok2 ⊢
    generalize hs1 : s.file parent q%"x.lit" plugins = s1 at hok hok2 ⊢
    rw [evalBody]
    refine more_bind ?_
    rw [evalNode, evalSeq]
    refine more_bind ?_
    rw [evalNode]
    refine more_bind ?_
    rw [evalLines]
    refine more_bind ?_
    rw [evalSeq]
    refine more_bind ?_
    rw [evalNode, invokeFn]
    refine more_step (a := ()) rfl ?_
    refine more_step (a := q%"x.lit") (s' := { s1 with heap := s1.heap.upd i fun x => { x with invokeLoc := ⟨1, 1, 0⟩ } }) ?_ ?_
    · rw [filePathM, hok2.filePath]; rfl
    refine more_step rfl ?_
    rw [findMethod_base (show cycleW.baseOnly from plainFiles_baseOnly _) (hok2.sound i hok2.lt).2]
    refine more_step (m := convertAll cycleW n i [.string] none _) (a := [.str q%"x.lit"])
      (s' := { s1 with heap := s1.heap.upd i fun x => { x with invokeLoc := ⟨1, 1, 0⟩ } }) ?_ ?_
    · cases n <;> rfl
    refine more_bind ?_
    simp only [callMethod, List.any, ArgV.isZero, callBase]
    refine more_step (a := q%"x.lit") (s' := { s1 with heap := s1.heap.upd i fun x => { x with invokeLoc := ⟨1, 1, 0⟩ } }) ?_ ?_
    · rw [filePathM, hok2.filePath]; rfl
    have hj : joinPath (dirPath q%"x.lit") q%"x.lit" = q%"x.lit" := by decide
    rw [hj]
    refine more_bind ?_
    have hrec := cycle_file n (some i) [0] _ ⟨hok2.sound, hok2.cache⟩ (by intro p hp; cases hp; exact hok2.lt) rfl
    have hrec2 : ((incl cycleW n i q%"x.lit") { s1 with heap := s1.heap.upd i fun x => { x with invokeLoc := ⟨1, 1, 0⟩ } }).1 = .more := more_bind hrec
    rw [M.attempt]
    revert hrec2
    cases incl cycleW n i q%"x.lit" { s1 with heap := s1.heap.upd i fun x => { x with invokeLoc := ⟨1, 1, 0⟩ } } with
    | mk r s => intro h; cases h; rfl

/-- **C36**: without the condition on includes the load does not end, as for a file that includes itself. -/
theorem C36_cycle_never_ends {s : St} (hs : Reach cycleW s) (n : Nat) : (loadFile cycleW n none q%"x.lit" [0] s).1 = .more := by
  rw [loadFile]
  exact more_bind (cycle_file n none [0] s ⟨hs.sound, hs.cacheOk⟩ (by simp) rfl)

end Booklit.Props
