import Verif.Lemmas.ErasedBuild
import Verif.Props.Command
import Verif.Props.Crlf
import Verif.Props.Surface

/-!
C88: where something is in a source file does not matter for the site.
-/

namespace Booklit.Props

open Booklit Booklit.Peg Booklit.Src Booklit.Templates Booklit.Tmpl

/-- The program, and all that may be compiled with plugins, do not look at places. -/
def Machine.Blind (m : Machine) : Prop :=
  Booklit.Blind m.self.foreign ∧ ∀ src out p, m.compile src = (out, some p) → Booklit.Blind p.foreign

theorem options_same (F : Options) (m : Machine) (p : Linked) (hp : Blind p.foreign) {fs' : Str → Option FileInfo} (hf : FilesAlike m.fs fs')
    (bytes' : Disk8) (n k : Nat) (d : Disk) :
    (F.build m p n k d).Same (F.build { m with fs := fs', bytes := bytes' } p n k d) := by
  have he : F.engine { m with fs := fs', bytes := bytes' } = F.engine m := rfl
  rw [build_engine, build_engine, he]
  have hE : ∀ E, F.engine m = .ok E → E.Blind := by
    intro E h
    unfold Options.engine at h
    split at h
    · rcases engine_cases m (textMode F.textExt) builtinText F.dir (F.site m) with ⟨ts, e⟩ | ⟨_, e⟩
      · rw [e] at h; cases h; exact engineWith_blind _ _ _
      · rw [e] at h; cases h
    · rcases engine_cases m htmlMode builtinHtml F.dir (F.site m) with ⟨ts, e⟩ | ⟨_, e⟩
      · rw [e] at h; cases h; exact engineWith_blind _ _ _
      · rw [e] at h; cases h
  rcases engineOf_cases F m with ⟨E, e⟩ | ⟨x, e⟩
  · rw [e]
    exact job_same (W := m.world p F) (W' := Machine.world { m with fs := fs', bytes := bytes' } p F) hp ⟨hf, rfl, rfl, rfl⟩ F.toJob m.outside (hE E e) _ _ n k d
  · rw [e]
    exact ⟨.rfl, rfl, rfl⟩

/-- **C88**: two builds of the same book, whose files have the same syntax trees up to places, end alike: either both are successful, or
both crash, or both fail, with errors that differ in places only; in any case they leave the same files on the disk, byte for byte, and
have the same standard output. This is so for all flags, all templates, with or without a search index, and if something cannot be
written. Plugins must not look at places. -/
theorem C88_build (F : Options) (m : Machine) (p : Linked) (hp : Blind p.foreign) {fs' : Str → Option FileInfo} (hf : FilesAlike m.fs fs')
    (bytes' : Disk8) (n k : Nat) (d : Disk) :
    let a := F.build m p n k d
    let b := F.build { m with fs := fs', bytes := bytes' } p n k d
    b.disk = a.disk ∧ b.stdout = a.stdout ∧ (b.res = .ok () ↔ a.res = .ok ()) ∧ (b.res = .panic ↔ a.res = .panic) ∧
    (∀ e, a.res = .err e → ∃ e', b.res = .err e' ∧ e'.erased = e.erased) ∧
    (∀ e', b.res = .err e' → ∃ e, a.res = .err e ∧ e'.erased = e.erased) := by
  intro a b
  obtain ⟨h1, h2, h3⟩ : a.Same b := options_same F m p hp hf bytes' n k d
  refine ⟨h2, h3, ?_⟩
  generalize a.res = r at h1
  generalize b.res = r' at h1
  cases r <;> cases r' <;> simp_all [Res.Same, Res.erased]

/-- **C88**: the command ends with the same exit status, the same standard output and the same disk; what it says on the standard error
can differ only if it fails. -/
theorem C88_positions (F : Options) (m : Machine) (hm : Machine.Blind m) {fs' : Str → Option FileInfo} (hf : FilesAlike m.fs fs')
    (bytes' : Disk8) (n k : Nat) (d : Disk) {o : Outcome} (h : F.main m n k d = some o) :
    ∃ o', F.main { m with fs := fs', bytes := bytes' } n k d = some o' ∧
      o'.exit = o.exit ∧ o'.stdout = o.stdout ∧ o'.disk = o.disk ∧ (o.exit ≠ 1 → o'.stderr = o.stderr) := by
  have key : ∀ (p : Linked) (_ : Blind p.foreign) o, (F.build m p n k d).outcome m = some o →
      ∃ o', (F.build { m with fs := fs', bytes := bytes' } p n k d).outcome { m with fs := fs', bytes := bytes' } = some o' ∧
        o'.exit = o.exit ∧ o'.stdout = o.stdout ∧ o'.disk = o.disk ∧ (o.exit ≠ 1 → o'.stderr = o.stderr) := by
    intro p hp o h
    obtain ⟨h1, h2, h3⟩ := options_same F m p hp hf bytes' n k d
    generalize F.build m p n k d = a at h h1 h2 h3
    generalize F.build { m with fs := fs', bytes := bytes' } p n k d = b at h1 h2 h3
    obtain ⟨r, d1, t⟩ := a
    obtain ⟨r', d1', t'⟩ := b
    dsimp only at h1 h2 h3
    subst h2 h3
    cases r <;> cases r' <;> simp_all [Res.Same, Res.erased, Built.outcome] <;> subst h <;> simp
  simp only [Options.main] at h ⊢
  split at h
  · rename_i hp
    rw [if_pos hp]
    exact key _ hm.1 _ h
  · rename_i hp
    rw [if_neg hp]
    cases hc : m.compile (reexecSource F.plugins) with
    | mk out q =>
      rw [hc] at h
      cases q with
      | none => exact ⟨o, h, rfl, rfl, rfl, fun _ => rfl⟩
      | some p =>
        dsimp only at h ⊢
        cases ho : (F.build m p n k d).outcome m with
        | none => rw [ho] at h; cases h
        | some o1 =>
          rw [ho] at h
          cases h
          obtain ⟨o', h1, h2, h3, h4, h5⟩ := key p (hm.2 _ _ _ hc) o1 ho
          exact ⟨{ o' with stderr := out ++ o'.stderr }, by rw [h1]; rfl, h2, h3, h4, fun hx => by simp [h5 hx]⟩

/-! ### Files that parse alike -/

theorem alike_parses (path : Str) {a b : FileInfo} {s s' : Str} {t : Node} (ha : a.data = some s) (hb : b.data = some s')
    (h : ParsesTo s t) (h' : ParsesTo s' t) : ReadAlike path a b := by
  obtain ⟨u, h1, h2⟩ := h
  obtain ⟨u', h3, h4⟩ := h'
  simp [ReadAlike, parseFile, ha, hb, h1, h3, Res.erased, h2, h4]

theorem alike_crlf (path : Str) (i : FileInfo) (mtime : Nat) (hd : ∀ s, i.data = some s → '\r' ∉ s) :
    ReadAlike path i ⟨mtime, i.data.map crlf⟩ := by
  unfold ReadAlike parseFile
  cases e : i.data with
  | none => rfl
  | some s =>
    obtain ⟨h1, _, h3⟩ := C06_crlf_equivalent s (hd s e)
    obtain ⟨o, ho, ho'⟩ := C01_parse_terminates s
    have ho : parseDoc s = some o := ho _ (Nat.le_refl _)
    rcases ho' with ⟨t, rfl⟩ | ⟨p, rfl⟩
    · obtain ⟨t', h4, h5⟩ := h1 t ho
      simp [ho, h4, Res.erased, h5]
    · obtain ⟨p', h4⟩ := h3.1 ⟨p, ho⟩
      simp [ho, h4, Res.erased, Err.erased]

/-- The files after some of them have been edited. -/
def edit (fs : Str → Option FileInfo) (f : Str → FileInfo → FileInfo) : Str → Option FileInfo := fun path => (fs path).map (f path)

theorem edit_alike {fs : Str → Option FileInfo} {f : Str → FileInfo → FileInfo} (h : ∀ path i, fs path = some i → ReadAlike path i (f path i)) :
    FilesAlike fs (edit fs f) := by
  intro path
  unfold edit
  cases e : fs path with
  | none => trivial
  | some i => exact h path i e

/-- **C88**: line endings: rewriting any of the files of a book with CRLF instead of LF gives the same site, byte for byte. Here
`which` are the files that are rewritten; their times of modification may change. -/
theorem C88_crlf (F : Options) (m : Machine) (hm : Machine.Blind m) (which : Str → Bool) (mtime : Str → Nat)
    (hd : ∀ path i s, which path = true → m.fs path = some i → i.data = some s → '\r' ∉ s)
    (bytes' : Disk8) (n k : Nat) (d : Disk) {o : Outcome} (h : F.main m n k d = some o) :
    ∃ o', F.main { m with fs := edit m.fs fun path i => if which path then ⟨mtime path, i.data.map crlf⟩ else i, bytes := bytes' } n k d = some o' ∧
      o'.exit = o.exit ∧ o'.stdout = o.stdout ∧ o'.disk = o.disk ∧ (o.exit ≠ 1 → o'.stderr = o.stderr) := by
  refine C88_positions F m hm (edit_alike fun path i hi => ?_) bytes' n k d h
  cases hw : which path with
  | true => exact alike_crlf path i _ fun s hs => hd path i s hw hi hs
  | false => exact rfl

/-- **C88**: layout: two ways to write the same thing, according to the description of the syntax of C11, give the same site, byte for
byte: with other line endings, with or without comments, with more or fewer blank lines or indentation, wherever the syntax tree is the
same. -/
theorem C88_layout (F : Options) (m : Machine) (hm : Machine.Blind m) (f : Str → FileInfo → FileInfo)
    (hd : ∀ path i, m.fs path = some i → f path i = i ∨ ∃ (nl nl' : Str) (a b : Doc), lineEnd nl ∧ lineEnd nl' ∧ a.ok nl ∧ b.ok nl' ∧
      a.tree = b.tree ∧ i.data = some (a.print nl) ∧ (f path i).data = some (b.print nl'))
    (bytes' : Disk8) (n k : Nat) (d : Disk) {o : Outcome} (h : F.main m n k d = some o) :
    ∃ o', F.main { m with fs := edit m.fs f, bytes := bytes' } n k d = some o' ∧
      o'.exit = o.exit ∧ o'.stdout = o.stdout ∧ o'.disk = o.disk ∧ (o.exit ≠ 1 → o'.stderr = o.stderr) := by
  refine C88_positions F m hm (edit_alike fun path i hi => ?_) bytes' n k d h
  rcases hd path i hi with e | ⟨nl, nl', a, b, h1, h2, h3, h4, h5, h6, h7⟩
  · rw [e]; exact rfl
  · obtain ⟨t, t1, t2⟩ := C11_print_parse nl h1 a h3
    obtain ⟨u, u1, u2⟩ := C11_print_parse nl' h2 b h4
    exact alike_parses path h6 h7 ⟨t, t1, rfl⟩ ⟨u, u1, by rw [u2, ← h5, t2]⟩

/-! ### Examples -/

theorem machine_blind (text : Str) : Machine.Blind (machine text) := by
  refine ⟨fun _ _ _ h => (by cases h), fun src out p h => ?_⟩
  simp only [machine] at h
  split at h
  · cases h
    intro q name f hf hp i args
    simp only [oneFile] at hf
    split at hf
    · split at hf
      · cases hf; rfl
      split at hf
      · cases hf; rfl
      split at hf
      · cases hf
        simp only [heap_erased hp i]
        rfl
      split at hf
      · cases hf; rfl
      · cases hf
    · cases hf
  · cases h

-- The hypotheses of `C88_crlf` hold for a book of two pages, whose text does change, and a build of it is successful.
example : '\r' ∉ twoPageBook ∧ crlf twoPageBook ≠ twoPageBook ∧
    (match ran { input := [], out := q%"o", saveIndex := true } twoPageBook with
    | some o => o.exit == 0
    | none => false) = true := by decide +kernel

-- An error in a book is reported at another place after a line break has been added at the start, so the standard error can differ.
example : (match parseDoc q%"\\nope y", parseDoc q%"\n\\nope y" with
    | some (.ok (.node t)), some (.ok (.node t')) => decide (t.erase = t'.erase) && decide (t ≠ t')
    | _, _ => false) = true ∧
    (match ran { input := [] } q%"\\nope y", ran { input := [] } q%"\n\\nope y" with
    | some o, some o' => o.exit == 1 && o'.exit == 1 && o.stderr != o'.stderr
    | _, _ => false) = true := by decide +kernel

/-- A plugin that shows the place of its argument. -/
def nosy : Foreign where
  params := [.node]
  variadic := none
  run := fun _ _ args =>
    match args with
    | [.node (.invoke _ _ l)] => .content (.str (List.replicate l.line 'x'))
    | _ => .nothing

-- It is not blind.
example : ¬ Blind fun _ _ => some nosy := by
  intro h
  have := h 1 [] nosy rfl [] 0 [.node (.invoke [] [] ⟨1, 1, 1⟩)]
  simp [nosy, Raw.erased, Node.erase, Ret.erased, Content.erased, Location.zero] at this

end Booklit.Props
