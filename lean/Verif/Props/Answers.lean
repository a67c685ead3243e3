import Verif.Lemmas.MovedLoad
import Verif.Lemmas.MovedRender
import Verif.Props.Build
import Verif.Props.Server

/-!
C74: what the development server answers does not depend on what it has answered before, and is what a build would have written.
-/

namespace Booklit

/-- Deferred contents that do not have sections in them: the content a user's function makes up when it is called. -/
def Site.Plain (S : Site) : Prop := ∀ i c, S.force i = some c → ∀ d, c.moved d = c

theorem Site.Plain.moved {S : Site} (h : S.Plain) (d : Nat) : S.Moved d S := by
  refine ⟨rfl, fun i => ?_⟩
  cases e : S.force i with
  | none => rfl
  | some c => rw [Option.map_some, h i c e d]

theorem requested_mono {h : Heap} {ext : Str} {n m i : Nat} {path : Str} {r : Option Nat} (hm : n ≤ m)
    (e : h.requested ext n i path = some r) : h.requested ext m i path = some r := by
  unfold Heap.requested at e ⊢
  cases ht : requestTag ext path with
  | none => rw [ht] at e; exact e
  | some name =>
    rw [ht] at e
    dsimp only at e ⊢
    cases hf : h.findTag n i name with
    | none => rw [hf] at e; cases e
    | some gs =>
      have : h.findTag m i name = some gs := tagsUp_mono _ _ _ _ hf m hm
      rw [this]
      rw [hf] at e
      exact e

namespace Props

/-- What an engine makes of a section depends on the sections of its book only, not on where in memory they are, and more fuel
does not change it. -/
structure Steady (E : Engine) : Prop where
  moved : ∀ (old h : Heap) (k i : Nat), E.render (old.behind h) k (i + old.length) = E.render h k i
  le : ∀ (h : Heap) (k k' i : Nat), k ≤ k' → (E.render h k i).Le (E.render h k' i)

theorem steady_html {S : Site} (hS : S.Plain) : Steady (htmlEngine S) :=
  ⟨fun old h k i => page_moved (hS.moved _) (behind_moved old h) k i, fun h _ _ i hk => page_le (S := S) (h := h) hk i⟩

theorem answer_history {W : World} (hW : W.Local) {E E' : Engine} (hE : Steady E) {input : Str} {fs : Files} {past : List Files} {s : St}
    (hs : Served W E' input (fs :: past) s) (path : Str) {n k n' k' : Nat} (hn : n ≤ n') (hk : k ≤ k')
    (hm : (answer (W.on fs) E n k input path ⟨[], []⟩).1 ≠ .more) :
    (answer (W.on fs) E n' k' input path s).1 = (answer (W.on fs) E n k input path ⟨[], []⟩).1 := by
  have key := load_behind (W := W.on fs) (hW s.heap) hs.fits hn input [0]
  revert hm
  rw [answer, answer]
  cases requestTag E.ext path with
  | none => intro _; rfl
  | some _ =>
    dsimp only
    revert key
    cases loadFile (W.on fs) n none input [0] ⟨[], []⟩ with
    | mk r s1 =>
      cases loadFile (W.on fs) n' none input [0] s with
      | mk r' s1' =>
        intro key hm
        rcases key with key | ⟨key, hh⟩
        · dsimp only at key
          subst key
          exact absurd rfl hm
        · dsimp only at key hh
          cases r <;> cases r' <;> first | exact key.elim | skip
          · cases key
            have M := behind_moved s.heap s1.heap
            dsimp only at hm ⊢
            rw [hh]
            next i =>
            cases e : s1.heap.requested E.ext k i path with
            | none => rw [e] at hm; exact absurd rfl hm
            | some x =>
              rw [e] at hm
              have e' := requested_mono hk e
              rw [requested_moved M, e']
              cases x with
              | none => rfl
              | some j =>
                dsimp only [Option.map_some] at hm ⊢
                have hp : E.render (s.heap.behind s1.heap) k' (j + s.heap.length) = E.render s1.heap k j := by
                  rw [hE.moved]
                  rcases hE.le s1.heap k k' j hk with h | h
                  · rw [h] at hm
                    exact absurd rfl hm
                  · exact h.symm
                rw [hp]
          · cases key; rfl
          · rfl

/-- **C74**: after any requests, and any changes of files that give them later modification times, the development server
answers a request as a server would that is started now: with the same page, or the same error, or it leaves the request to
the file server just the same. The plugins see only the sections they are given. Fuel `n` and `k` sufficient for the new server is
sufficient for the old one. -/
theorem C74_history {W : World} (hW : W.Local) {S : Site} (hS : S.Plain) {input : Str} {fs : Files} {past : List Files} {s : St}
    (hs : Served W (htmlEngine S) input (fs :: past) s) (path : Str) {n k n' k' : Nat} (hn : n ≤ n') (hk : k ≤ k')
    (hm : (answer (W.on fs) (htmlEngine S) n k input path ⟨[], []⟩).1 ≠ .more) :
    (answer (W.on fs) (htmlEngine S) n' k' input path s).1 = (answer (W.on fs) (htmlEngine S) n k input path ⟨[], []⟩).1 :=
  answer_history hW (steady_html hS) hs path hn hk hm

/-- **C74**: if the book cannot be loaded, a build ends with the error, and the server answers each request for a page with the
same error. -/
theorem C74_load_error {W : World} (hW : W.Local) {fs : Files} {J : Job} {n : Nat} {b : St} {e : Err}
    (hl : loadFile (W.on fs) n none J.input [0] ⟨[], []⟩ = (.err e, b)) {S : Site} (hS : S.Plain) {past : List Files} {s : St}
    (hs : Served W (htmlEngine S) J.input (fs :: past) s) {path : Str} (hp : path = ['/'] ∨ q%".html" <:+ path) :
    (∀ n' k, n ≤ n' → (answer (W.on fs) (htmlEngine S) n' k J.input path s).1 = .err e) ∧
    ∀ O E bo short k d, (J.build (W.on fs) O E bo short n k d).res = .err e ∧ (J.build (W.on fs) O E bo short n k d).disk = d := by
  refine ⟨fun n' k hn => ?_, fun O E bo short k d => ?_⟩
  · have fresh : (answer (W.on fs) (htmlEngine S) n k J.input path ⟨[], []⟩).1 = .err e := by
      rw [answer]
      cases hr : requestTag (htmlEngine S).ext path with
      | none =>
        have : path ≠ ['/'] ∧ ¬ ('.' :: htmlExt) <:+ path := by
          change requestTag htmlExt path = none at hr
          unfold requestTag at hr
          constructor
          · rintro rfl
            revert hr
            decide
          · intro h
            by_cases e : path = ['/']
            · subst e
              exact absurd h (by decide)
            · have hs : hasSuffix path ('.' :: htmlExt) = true := by
                unfold hasSuffix
                exact List.isSuffixOf_iff_suffix.2 h
              simp [e, hs] at hr
        rcases hp with hp | hp
        · exact absurd hp this.1
        · exact absurd hp this.2
      | some t => simp only [hl]
    rw [C74_history hW hS hs path hn (Nat.le_refl k) (by rw [fresh]; simp), fresh]
  · rw [Job.build, hl]
    exact ⟨rfl, rfl⟩

/-- **C74**: if a page that only its section is called like cannot be rendered, the server answers with the error. -/
theorem C74_render_error {W : World} (hW : W.Local) {fs : Files} {input : Str} {n i : Nat} {b : St}
    (hl : loadFile (W.on fs) n none input [0] ⟨[], []⟩ = (.ok i, b)) {S : Site} (hS : S.Plain) {past : List Files} {s : St}
    (hs : Served W (htmlEngine S) input (fs :: past) s) :
    ∃ t, t.root = i ∧ Book b.heap t ∧ ∀ p ∈ t.ids, (b.heap.get p).primaryTag ∈ (b.heap.get p).tags →
      (∀ j ∈ t.ids, j ≠ p → ∀ g ∈ (b.heap.get j).tags, g.name ≠ (b.heap.get p).primaryTag.name) →
      ∃ K, ∀ k, K ≤ k → ∀ e, b.heap.page S k p = .err e → ∀ n', n ≤ n' →
        (answer (W.on fs) (htmlEngine S) n' k input ('/' :: ((b.heap.get p).primaryTag.name ++ q%".html")) s).1 = .err e := by
  have hr : Reach (W.on fs) b := by
    have := Reach.load n none input [0] (Reach.start (W := W.on fs)) (by simp) rfl
    rw [hl] at this
    exact this
  obtain ⟨t, rfl, bk⟩ := C28_loaded_tree hl
  refine ⟨t, rfl, bk, fun p hp htag uniq => ?_⟩
  have own : ∀ j ∈ t.ids, ∀ g ∈ (b.heap.get j).tags, g.sec = some j := fun j _ => C49_own_tags hr j
  obtain ⟨r, ⟨N, hN⟩, hr'⟩ := (C47_requests bk own htmlExt).1 (b.heap.get p).primaryTag.name
  have hr2 : r = some p := by
    cases r with
    | none => exact (hr' p hp _ htag rfl).elim
    | some j =>
      obtain ⟨hj, g, hg, hname⟩ := hr'
      by_cases e : j = p
      · rw [e]
      · exact (uniq j hj e g hg hname).elim
  subst hr2
  refine ⟨N, fun k hk e he n' hn => ?_⟩
  have fresh : (answer (W.on fs) (htmlEngine S) n k input ('/' :: ((b.heap.get p).primaryTag.name ++ q%".html")) ⟨[], []⟩).1 =
      .err e := by
    have h4 : b.heap.requested htmlExt k t.root ('/' :: ((b.heap.get p).primaryTag.name ++ ['.'] ++ htmlExt)) = some (some p) :=
      hN k (by omega)
    have hname : (b.heap.get p).primaryTag.name ++ q%".html" = (b.heap.get p).primaryTag.name ++ ['.'] ++ htmlExt := by
      simp [htmlExt]
    rw [hname]
    unfold answer
    change (match requestTag htmlExt _ with | none => _ | some _ => _ : Res Answer × St).1 = _
    rw [requestTag_page]
    dsimp only
    rw [hl]
    dsimp only
    change (match b.heap.requested htmlExt k t.root _ with | none => _ | some none => _ | some (some j) => _ : Res Answer × St).1 = _
    rw [h4]
    change (b.heap.page S k p).map _ = _
    rw [he]
    rfl
  rw [C74_history hW hS hs _ hn (Nat.le_refl k) (by rw [fresh]; simp), fresh]

/-- **C74**: the server and the build agree. For a document in order, the development server answers, after any requests and
changes of files, the request for a page with the very text that a build of the files as they are now would put into the file
of this name, provided that no other section has a tag or file of the name of the page. -/
theorem C74_like_build {W : World} {fs : Files} {F : Content → Prop} (hF : (W.on fs).Makes F) (hm : ∀ c, F c → c.simple = true)
    (hp : W.SolidPlugins) (hW : W.Local) (hfs : fs [] = none) {J : Job} (hJ : J.Whole) {n i : Nat} {b : St}
    (hl : loadFile (W.on fs) n none J.input [0] ⟨[], []⟩ = (.ok i, b)) {O : Outside} (hO : O.Fine) {S : Site} (hS : S.Plain)
    (short : Bool) {past : List Files} {s : St} (hs : Served W (htmlEngine S) J.input (fs :: past) s) :
    ∃ t ps, t.root = i ∧ Book b.heap t ∧ Ends (fun n => b.heap.written n i) ps ∧
      (InOrder b.heap t → ∀ p ∈ ps, (b.heap.get p).primaryTag ∈ (b.heap.get p).tags →
       (∀ q ∈ ps, '/' ∉ (b.heap.get q).primaryTag.name) →
       (∀ q ∈ ps, q ≠ p → (b.heap.get q).primaryTag.name ≠ (b.heap.get p).primaryTag.name) →
       (∀ j ∈ t.ids, j ≠ p → ∀ g ∈ (b.heap.get j).tags, g.name ≠ (b.heap.get p).primaryTag.name) →
       ∃ K, ∀ k, K ≤ k → ∀ d, ∃ txt,
        (J.build (W.on fs) O (htmlEngine S) S.brokenOk short n k d).disk
          (joinPath J.out ((b.heap.get p).primaryTag.name ++ q%".html")) = some txt ∧
        ∀ n', n ≤ n' → (answer (W.on fs) (htmlEngine S) n' k J.input ('/' :: ((b.heap.get p).primaryTag.name ++ q%".html")) s).1 =
          .ok (.page txt)) := by
  have hr : Reach (W.on fs) b := by
    have := Reach.load n none J.input [0] (Reach.start (W := W.on fs)) (by simp) rfl
    rw [hl] at this
    exact this
  obtain ⟨t, ps, rfl, bk, hps, hb⟩ := C68_documents hF hm hp hfs hJ hl hO S short
  refine ⟨t, ps, rfl, bk, hps, fun ord p hpp htag noslash diff uniq => ?_⟩
  obtain ⟨K, hK⟩ := hb ord
  have own : ∀ j ∈ t.ids, ∀ g ∈ (b.heap.get j).tags, g.sec = some j := fun j _ => C49_own_tags hr j
  obtain ⟨r, ⟨N, hN⟩, hr'⟩ := (C47_requests bk own htmlExt).1 (b.heap.get p).primaryTag.name
  have hr2 : r = some p := by
    have hpt := written_ids bk hps p hpp
    cases r with
    | none => exact (hr' p hpt _ htag rfl).elim
    | some j =>
      obtain ⟨hj, g, hg, hname⟩ := hr'
      by_cases e : j = p
      · rw [e]
      · exact (uniq j hj e g hg hname).elim
  subst hr2
  refine ⟨K + N, fun k hk d => ?_⟩
  obtain ⟨-, hfile, -, -⟩ := hK k (by omega) d
  have good : goodExt htmlExt := by unfold goodExt; decide
  have hname : (b.heap.get p).primaryTag.name ++ q%".html" = (b.heap.get p).primaryTag.name ++ ['.'] ++ htmlExt := by
    simp [htmlExt]
  obtain ⟨q, hq, e, txt, h2, h3⟩ := hfile p hpp
  have hqp : q = p := Classical.byContradiction fun hqp => by
    have := joinPath_inj hJ.out (plain_fileName (noslash q hq) good) (plain_fileName (noslash p hpp) good) e
    exact absurd (List.append_cancel_right (List.append_cancel_right this)) (diff q hq hqp)
  subst hqp
  refine ⟨txt, by rw [hname]; exact h3, fun n' hn => ?_⟩
  have fresh : (answer (W.on fs) (htmlEngine S) n k J.input ('/' :: ((b.heap.get q).primaryTag.name ++ q%".html")) ⟨[], []⟩).1 =
      .ok (.page txt) := by
    have h4 : b.heap.requested htmlExt k t.root ('/' :: ((b.heap.get q).primaryTag.name ++ ['.'] ++ htmlExt)) = some (some q) :=
      hN k (by omega)
    rw [hname]
    unfold answer
    change (match requestTag htmlExt _ with | none => _ | some _ => _ : Res Answer × St).1 = _
    rw [requestTag_page]
    dsimp only
    rw [hl]
    dsimp only
    change (match b.heap.requested htmlExt k t.root _ with | none => _ | some none => _ | some (some j) => _ : Res Answer × St).1 = _
    rw [h4]
    change (b.heap.page S k q).map _ = _
    rw [h2]
    rfl
  rw [C74_history hW hS hs _ hn (Nat.le_refl k) (by rw [fresh]; simp), fresh]

/-- One file, with its modification time. -/
def oneAt (t : Nat) (text : Str) : Files := fun p => if p = q%"x.lit" then some ⟨t, some text⟩ else none

/-- Only the base plugin. -/
def baseOnly : World := ⟨fun _ => none, fun _ => none, fun _ _ => none, false⟩

example : baseOnly.Local := fun _ _ _ _ h => by cases h

/-- The HTML engine without deferred contents. -/
def plainSite : Site := ⟨false, fun _ => none⟩

example : plainSite.Plain := fun _ _ h => by cases h

/-- An answer that is a page. -/
def Answered.text : Res Answer × St → Option Str
  | (.ok (.page t), _) => some t
  | _ => none

/-- Whether the one text occurs in the other. -/
def occurs (w : Str) : Str → Bool
  | [] => w == []
  | c :: s => w.isPrefixOf (c :: s) || occurs w s

/-- The answers of a server to a request for the page `b`, when the files are these. -/
def asked (fs : Files) (s : St) : Res Answer × St := answer (baseOnly.on fs) (htmlEngine plainSite) 5 9 q%"x.lit" q%"/b.html" s

/-- The book before it is changed. -/
def before : Str := q%"\\title{A}{a}\n\n\\split-sections\n\n\\section{\\title{B}{b}\n\nfirst, see \\reference{a}\n}\n"

/-- The book after it has been changed: the page has another number and text. -/
def after : Str := q%"\\title{A}{a}\n\n\\split-sections\n\n\\section{\\title{C}}\n\n\\section{\\title{B}{b}\n\nsecond, see \\reference{a}\n}\n"

/-- What a server remembers that has shown a page twice, after which the file has been changed. -/
def remembers : St := (asked (oneAt 1 before) (asked (oneAt 1 before) ⟨[], []⟩).2).2

example : Served baseOnly (htmlEngine plainSite) q%"x.lit" [oneAt 2 after, oneAt 1 before] remembers := by
  refine .edit _ (.request 5 9 q%"/b.html" (.request 5 9 q%"/b.html" (.start _))) ?_
  intro old ho path i i' h1 h2
  rw [List.mem_singleton.1 ho, oneAt] at h1
  rw [oneAt] at h2
  split at h1
  · next h =>
    rw [if_pos h] at h2
    cases h1
    cases h2
    exact .inr (by decide)
  · cases h1

/-- The old server does show the changed page, although it remembers four sections and a file. -/
example : remembers.heap.length = 4 ∧ remembers.cache.length = 1 ∧
    (Answered.text (asked (oneAt 2 after) remembers)).map (fun x => (occurs q%"second" x, decide (x.length > 100))) = some (true, true) ∧
    Answered.text (asked (oneAt 2 after) remembers) = Answered.text (asked (oneAt 2 after) ⟨[], []⟩) := by
  decide +kernel

/-- A build of the changed book puts the same text into the file, and the conditions of the theorem above are met. -/
example : let B := ({ input := q%"x.lit", out := q%"o" } : Job).build (baseOnly.on (oneAt 2 after)) calm (htmlEngine plainSite) false true 5 9 fun _ => none
    B.disk q%"o/b.html" = Answered.text (asked (oneAt 2 after) remembers) ∧ (B.disk q%"o/b.html").isSome = true ∧
    (match loadFile (baseOnly.on (oneAt 2 after)) 5 none q%"x.lit" [0] ⟨[], []⟩ with
      | (.ok i, s) => i == 0 && orderCheck s.heap (.node 0 [.node 1 [], .node 2 []]) && (s.heap.get 0).children == [1, 2] &&
          (s.heap.get 1).children == [] && (s.heap.get 2).children == [] && s.heap.written 5 0 == some [0, 1, 2] &&
          [0, 1, 2].all fun p => (s.heap.get p).tags.map Tag.name == [(s.heap.get p).primaryTag.name] &&
            !(s.heap.get p).primaryTag.name.contains '/'
      | _ => false) = true := by
  decide +kernel

/-- The errors an old server answers with: a file that does not parse, and a page with a reference to nothing. -/
example : (match asked (oneAt 2 q%"\\title{") remembers with | (.err (.parse p _), _) => p == q%"x.lit" | _ => false) = true ∧
    (match asked (oneAt 2 q%"\\title{B}{b}\n\n\\reference{u}") remembers with
      | (.err (.unknownTag t known p l), _) => t == q%"u" && known == [q%"b"] && p == q%"x.lit" && l.line == 3
      | _ => false) = true := by
  decide +kernel

/-- The modification time matters in **C74**: if a file is changed but keeps its modification time, the server goes on showing
what was there before. -/
theorem C74_needed : Answered.text (asked (oneAt 1 after) remembers) ≠ Answered.text (asked (oneAt 1 after) ⟨[], []⟩) ∧
    (Answered.text (asked (oneAt 1 after) remembers)).map (occurs q%"first") = some true := by
  decide +kernel

end Props
end Booklit
