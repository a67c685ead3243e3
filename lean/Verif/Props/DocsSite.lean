import Verif.Props.Placeholders
import Verif.Lemmas.DocsL
import Verif.Model.DocsPlugin
import Verif.Lemmas.MovedLoad
import Verif.Lemmas.ErasedL

/-!
C98: the site of Booklit's own documentation.
-/

namespace Booklit.Props

open Booklit Booklit.Templates Booklit.Tmpl Booklit.Markup Tree

/-- What content is rendered to by a set of templates. -/
def RenderedAs (ts : TSet) (S : Site) (h : Heap) (c : Content) (x : Str) : Prop := ∃ n, run htmlMode (htmlMode.compile ts) S h n (.content c) = .ok x

/-- The templates there are after loading a directory over those that come with Booklit. -/
theorem load_mem (L : Lang) (d : Dir) {file src : Str} (h : (L.loadTemplates builtinHtml d (.new builtinHtml)).2.tmpl file = some src) :
    (∃ p ∈ builtinHtmlFiles, file = fileOf p.1 ∧ src = trimNewlines p.2) ∨ ∃ f ∈ d, f.1 = file ∧ src = trimNewlines f.2.text := by
  rw [Lang.loadTemplates] at h
  dsimp only at h
  split at h
  · rcases parseAll_mem L d _ file src h with h | h
    · exact .inl (builtin_mem h)
    · exact .inr h
  · exact .inl (builtin_mem h)

/-- All pages are made with the same template, whatever the style of their section. -/
theorem docs_page_template (style : Str) : docsHtml.htmlPage style = some q%"page" := by
  have h1 : docsHtml.find q%"page" = some q%"page" := by decide +kernel
  have h2 : docsHtml.find (style ++ q%"-page") = none := by
    rw [TSet.find]
    have key : ∀ f ∈ builtinHtmlFiles.map (fileOf ·.1) ++ docsDir.map (·.1), f.reverse.take 10 ≠ q%"lpmt.egap-" := by decide +kernel
    cases e : docsHtml (style ++ q%"-page" ++ q%".tmpl") with
    | none => rfl
    | some src =>
      refine absurd ?_ (key (style ++ q%"-page" ++ q%".tmpl") ?_)
      · rw [List.append_assoc, List.reverse_append]
        rfl
      · rw [List.mem_append, List.mem_map, List.mem_map]
        rcases load_mem _ _ e with ⟨p, hp, e, _⟩ | ⟨f, hf, e, _⟩
        · exact .inl ⟨p, hp, e.symm⟩
        · exact .inr ⟨f, hf, e⟩
  rw [TSet.htmlPage, h1, h2]
  split <;> rfl

theorem ofFuel_ok {α : Type} {o : Option α} {a : α} (h : Res.ofFuel o = .ok a) : o = some a := by
  cases o with
  | none => cases h
  | some x => cases h; rfl

theorem ends_at {α : Type} {f : Nat → Option α} {v w : α} (h : Ends f v) (mono : ∀ {n m : Nat} {a}, n ≤ m → f n = some a → f m = some a) {n : Nat}
    (e : f n = some w) : w = v := by
  obtain ⟨N, hN⟩ := h
  have h1 := mono (Nat.le_max_left n N) e
  rw [hN _ (Nat.le_max_right n N)] at h1
  exact (Option.some.inj h1).symm

theorem tagURL_address {h : Heap} {n : Nat} {g : Tag} {u : Str} (e : Heap.tagURL h htmlExt n g = .ok u) : Address h g u := by
  rw [Heap.tagURL] at e
  split at e
  · cases e
  · rename_i i hi
    exact sectionURL_address hi (ofFuel_ok e)

theorem resMap_index {α β : Type} {f : α → Res β} : ∀ {l : List α} {bs : List β}, resMap f l = .ok bs →
    bs.length = l.length ∧ ∀ (j : Nat) (a : α), l[j]? = some a → ∃ b, f a = .ok b ∧ bs[j]? = some b
  | [], bs, h => by
    cases h
    exact ⟨rfl, fun j a e => by simp at e⟩
  | a :: l, bs, h => by
    rw [resMap] at h
    obtain ⟨b, hb, h⟩ := Res.ok_of_bind h
    cases hl : resMap f l with
    | ok xs =>
      rw [hl] at h
      cases h
      obtain ⟨h1, h2⟩ := resMap_index hl
      refine ⟨by simp [h1], fun j x e => ?_⟩
      cases j with
      | zero => cases e; exact ⟨b, hb, rfl⟩
      | succ j => exact h2 j x e
    | _ => rw [hl] at h; cases h

seal d_page d_entry docsHtml docsPage docsEntry

/-- **C98**: what a page of the documentation is. In its head is the title of the section; the name of the site leads to the top of
the book; the navigation has an entry for each section below the top, in their order, with its address and its title without what is auxiliary; and
the entry that the page is in is marked, no other, and none on the page of the top. -/
theorem C98_page {h : Heap} {t : Tree} (b : Book h t) {ks : List Nat} {s : Tree} (hs : At t ks s) {S : Site} {n : Nat} {page : Str}
    (e : pageWith htmlMode docsHtml S h n s.root = .ok page) :
    ∃ (title home : Str) (entries : List Str) (body : Str),
      page = docsPage (ks = []) title home entries body ∧
      (∃ m, h.text S.brokenOk m (h.get s.root).title = .ok title) ∧
      Address h (h.get t.root).primaryTag home ∧
      RenderedAs docsHtml S h (.sect s.root) body ∧
      entries.length = t.kids.length ∧
      ∀ (j : Nat) (k : Tree), t.kids[j]? = some k → ∃ u d x, Address h (h.get k.root).primaryTag u ∧ stripAux (h.get k.root).title = some d ∧
        RenderedAs docsHtml S h d x ∧ entries[j]? = some (docsEntry (ks.head? = some j) u x) := by
  rw [pageWith, show htmlMode.isHtml = true from rfl, if_pos rfl, docs_page_template] at e
  cases n with
  | zero => cases e
  | succ n =>
    dsimp only at e
    rw [run, show q%"page" ++ q%".tmpl" = q%"page.tmpl" from rfl, d_page_is] at e
    dsimp only at e
    rw [exec_docs rfl _ (by cases n <;> rfl)] at e
    obtain ⟨title, e1, ea⟩ := Res.ok_of_bind e
    obtain ⟨top, e2, eb⟩ := Res.ok_of_bind ea
    obtain ⟨home, e3, ec⟩ := Res.ok_of_bind eb
    obtain ⟨es, e4, ed⟩ := Res.ok_of_bind ec
    clear e ea eb ec
    obtain rfl : top = t.root := ends_at (top_ends b hs) (fun hm e => top_mono hm e) (ofFuel_ok e2)
    cases e5 : run htmlMode (htmlMode.compile docsHtml) S h n (.content (.sect s.root)) with
    | ok body =>
      rw [show (envOf htmlMode S h n (run htmlMode (htmlMode.compile docsHtml) S h n)).render (.sect s.root) = _ from e5] at ed
      cases ed
      refine ⟨title, home, es, body, ?_, ⟨n, ?_⟩, tagURL_address e3, ⟨n, e5⟩, ?_, ?_⟩
      · refine congrArg (docsPage · title home es body) (?_ : (h.get s.root).parent.isNone = _)
        cases hs with
        | here => rw [b.top]; rfl
        | step hp hk => rw [b.kid_parent hp hk]; simp
      · have : (h.text S.brokenOk n (h.get s.root).title).recover = .ok title := e1
        cases e : h.text S.brokenOk n (h.get s.root).title <;> rw [e] at this <;> first | exact this | cases this
      · rw [(resMap_index e4).1]
        show (h.get t.root).children.length = _
        rw [b.children t ⟨[], .here⟩, List.length_map]
      · intro j k hk
        obtain ⟨x, h1, h2⟩ := (resMap_index e4).2 j k.root (by
          show (h.get t.root).children[j]? = _
          rw [b.children t ⟨[], .here⟩, List.getElem?_map, hk]
          rfl)
        rw [exec_entry rfl] at h1
        obtain ⟨cur, g1, ha⟩ := Res.ok_of_bind h1
        obtain ⟨u, g2, hb⟩ := Res.ok_of_bind ha
        clear h1 ha
        split at hb
        · cases hb
        · rename_i d hd
          cases e6 : run htmlMode (htmlMode.compile docsHtml) S h n (.content d) with
          | ok y =>
            rw [show (envOf htmlMode S h n (run htmlMode (htmlMode.compile docsHtml) S h n)).render d = _ from e6] at hb
            cases hb
            have hat : At t [j] k := .step (ks := []) .here hk
            obtain ⟨yes, g3, g4⟩ := (C19_tree_queries b hat).2.2.1 hs
            obtain rfl : cur = yes := ends_at g3 (fun hm e => (contains_mono _).1 hm e) (ofFuel_ok g1)
            refine ⟨u, d, y, tagURL_address g2, hd, ⟨n, e6⟩, ?_⟩
            rw [h2]
            refine congrArg (fun c => some (docsEntry c u y)) ?_
            rw [Bool.eq_iff_iff, decide_eq_true_iff, g4]
            cases ks with
            | nil => simp
            | cons a ks => simp [eq_comm]
          | _ => rw [show (envOf htmlMode S h n (run htmlMode (htmlMode.compile docsHtml) S h n)).render d = _ from e6] at hb; cases hb
    | _ =>
      rw [show (envOf htmlMode S h n (run htmlMode (htmlMode.compile docsHtml) S h n)).render (.sect s.root) = _ from e5] at ed
      cases ed

unseal d_page d_entry docsHtml docsPage docsEntry

/-- **C98**: how an entry is read: a list item, with the class `current` or without, that contains only a link to the section. -/
theorem C98_entry {x : Str} {ds : List Dom} (hx : readHtml x = some ds) (cur : Bool) (u : Str) : ∃ v pre post, LeadsTo u v ∧
    readHtml (docsEntry cur u x) = some (pre ++ [.elem q%"li" (if cur then [(q%"class", q%"current")] else []) [.elem q%"a" [(q%"href", v)] ds]] ++ post) ∧
    Blank pre ∧ Blank post := by
  refine ⟨linkTo u, chars q%"\n          ", chars q%"\n        ", leadsTo_linkTo u, reads_iff.1 ?_, blank_chars (by decide), blank_chars (by decide)⟩
  have link := Reads.link u (reads_iff.2 hx)
  have pre : Reads q%"\n          " (chars q%"\n          ") := .ws (by decide)
  have post : Reads q%"\n        " (chars q%"\n        ") := .ws (by decide)
  cases cur with
  | false =>
    have := (pre.append (link.around (a := q%"<li>") (z := q%"</li>") (name := q%"li") (as := []) (fun _ _ _ => rfl) fun _ _ _ _ _ => rfl)).append post
    simpa [docsEntry] using this
  | true =>
    have := (pre.append (link.around (a := q%"<li class=\"current\">") (z := q%"</li>") (name := q%"li") (as := [(q%"class", q%"current")])
      (fun _ _ _ => rfl) fun _ _ _ _ _ => rfl)).append post
    simpa [docsEntry] using this

/-- **C98**: on the site, too, what is written in a document is only text (C87), unless a plugin makes raw HTML. -/
theorem C98_only_text {W : World} {F : Content → Prop} (hF : W.Makes F) (hm : ∀ c, F c → c.noRaw = true) (hfs : W.fs [] = none) {s : St}
    (hr : Reach W s) {S : Site} (hS : ∀ i c, S.force i = some c → c.unstyled [q%"raw-html"] = true)
    (hs : ∀ i, (s.heap.get i).style ≠ q%"raw-html") {n i : Nat} {page : Str} (e : pageWith htmlMode docsHtml S s.heap n i = .ok page) :
    ∃ ps : List Piece, page = ps.flatMap Piece.text ∧ Composed (OfTemplates docsHtml) .text ps .text := by
  have key : ∀ f ∈ docsDir, (match parse htmlFns (trimNewlines f.2.text) with
        | none => true
        | some ns => !(usedByL ns).contains .rawHTML && !(usedByL ns).contains .rawURL) = true ∧
      (match compileHtml (trimNewlines f.2.text) with
        | none => true
        | some ns => !(callsL ns).contains q%"raw-html.tmpl") = true := by
    decide +kernel
  refine C87_documents (langOf htmlMode) (d := docsDir) (fun f hf => escapes_of_check (key f hf).1) (fun f hf ns hn => ?_) hF hm hfs hr hS hs e
  have h := (key f hf).2
  cases hc : (callsL ns).contains q%"raw-html.tmpl" with
  | true => simp only [hn, hc, Bool.not_true, Bool.false_eq_true] at h
  | false => exact fun hm => by rw [List.contains_iff_mem.2 hm] at hc; cases hc

/-! ### The plugin of the documentation -/

theorem docs_method {p : Nat} {name : Str} {f : Foreign} (h : docsForeign p name = some f) :
    f = outputFrame ∨ f = syntaxHl ∨ f = columnHeader ∨ f = columns ∨ f = templateLink ∨ f = describeFruit := by
  rw [docsForeign] at h
  split at h
  · obtain ⟨l₁, l₂, e, -⟩ := List.lookup_eq_some_iff.mp h
    have : f ∈ docsMethods.map Prod.snd := by
      rw [e]
      simp
    simpa [docsMethods] using this
  · cases h

theorem contents_moved (d : Nat) : ∀ as : List Raw, Raw.contents (as.map (Raw.moved d)) = movedL d (Raw.contents as)
  | [] => rfl
  | .content c :: as => by simp [Raw.contents, Raw.moved, contents_moved d as]
  | .str _ :: as => by simp [Raw.contents, Raw.moved, contents_moved d as]
  | .node _ :: as => by simp [Raw.contents, Raw.moved, contents_moved d as]

theorem strings_moved (d : Nat) : ∀ as : List Raw, Raw.strings (as.map (Raw.moved d)) = Raw.strings as
  | [] => rfl
  | .content c :: as => by simp [Raw.strings, Raw.moved, strings_moved d as]
  | .str _ :: as => by simp [Raw.strings, Raw.moved, strings_moved d as]
  | .node _ :: as => by simp [Raw.strings, Raw.moved, strings_moved d as]

/-- **C98**: the plugin sees only the sections of the book it is called in, so that what is said of the server (C74, C78, C83) holds with it. -/
theorem C98_local (fs : Str → Option FileInfo) (brokenOk : Bool) : World.Local ⟨fs, docsRegistry, docsForeign, brokenOk⟩ := by
  intro old p name f hf h i args
  rcases docs_method hf with rfl | rfl | rfl | rfl | rfl | rfl
  · rcases args with _ | ⟨_ | _ | _, _ | ⟨_, _⟩⟩ <;> rfl
  · rcases args with _ | ⟨_ | _ | _, _ | ⟨_, _⟩⟩ <;> rfl
  · rcases args with _ | ⟨_ | _ | _, _ | ⟨_, _⟩⟩ <;> rfl
  · rcases args with _ | ⟨_ | _ | _, rest⟩ <;> try rfl
    simp [columns, Raw.moved, Ret.moved, Content.moved, movedP, contents_moved]
  · rcases args with _ | ⟨_ | _ | _, _ | ⟨_, _⟩⟩ <;> rfl
  · rcases args with _ | ⟨name | _ | _, _ | ⟨_ | c | _, rest⟩⟩ <;> try rfl
    simp only [describeFruit, Raw.moved, List.map_cons, strings_moved]
    split
    · rfl
    · have hi : ((old.behind h).get (i + old.length)).invokeLoc = (h.get i).invokeLoc := by rw [behind_moved old h i]; rfl
      simp [Ret.moved, Content.moved, hi, Function.comp_def]

theorem contents_erased : ∀ as : List Raw, Raw.contents (as.map Raw.erased) = erasedL (Raw.contents as)
  | [] => rfl
  | .content c :: as => by simp [Raw.contents, Raw.erased, contents_erased as]
  | .str _ :: as => by simp [Raw.contents, Raw.erased, contents_erased as]
  | .node _ :: as => by simp [Raw.contents, Raw.erased, contents_erased as]

theorem strings_erased : ∀ as : List Raw, Raw.strings (as.map Raw.erased) = Raw.strings as
  | [] => rfl
  | .content c :: as => by simp [Raw.strings, Raw.erased, strings_erased as]
  | .str _ :: as => by simp [Raw.strings, Raw.erased, strings_erased as]
  | .node _ :: as => by simp [Raw.strings, Raw.erased, strings_erased as]

/-- **C98**: nor does it look at the places of things in source files, so that what is said of the layout of documents (C88) holds with it. -/
theorem C98_blind : Blind docsForeign := by
  intro p name f hf h i args
  rcases docs_method hf with rfl | rfl | rfl | rfl | rfl | rfl
  · rcases args with _ | ⟨_ | _ | _, _ | ⟨_, _⟩⟩ <;> rfl
  · rcases args with _ | ⟨_ | _ | _, _ | ⟨_, _⟩⟩ <;> rfl
  · rcases args with _ | ⟨_ | _ | _, _ | ⟨_, _⟩⟩ <;> rfl
  · rcases args with _ | ⟨_ | _ | _, rest⟩ <;> try rfl
    simp [columns, Raw.erased, Ret.erased, Content.erased, erasedP, contents_erased]
  · rcases args with _ | ⟨_ | _ | _, _ | ⟨_, _⟩⟩ <;> rfl
  · rcases args with _ | ⟨name | _ | _, _ | ⟨_ | c | _, rest⟩⟩ <;> try rfl
    simp only [describeFruit, Raw.erased, List.map_cons, strings_erased]
    split
    · rfl
    · have hi : (h.erased.get i).invokeLoc = Location.zero := by rw [heap_erased h i]; rfl
      simp [Ret.erased, Content.erased, hi, Function.comp_def]

theorem mem_partsL {d : Content} : ∀ {cs : List Content}, d ∈ partsL true cs → ∃ c ∈ cs, d ∈ c.parts true
  | [], h => by cases h
  | c :: cs, h => by
    rw [partsL, List.mem_append] at h
    rcases h with h | h
    · exact ⟨c, List.mem_cons_self, h⟩
    · obtain ⟨x, hx, hd⟩ := mem_partsL h
      exact ⟨x, List.mem_cons_of_mem _ hx, hd⟩

theorem mem_contents {c : Content} : ∀ {as : List Raw}, c ∈ Raw.contents as → Raw.content c ∈ as
  | .content d :: as, h => by
    rw [Raw.contents, List.mem_cons] at h
    rcases h with rfl | h
    · exact List.mem_cons_self
    · exact List.mem_cons_of_mem _ (mem_contents h)
  | .str _ :: as, h => List.mem_cons_of_mem _ (mem_contents (as := as) h)
  | .node _ :: as, h => List.mem_cons_of_mem _ (mem_contents (as := as) h)

/-- It makes no raw HTML of its own. -/
theorem docs_makes (fs : Str → Option FileInfo) (brokenOk : Bool) :
    World.Makes ⟨fs, docsRegistry, docsForeign, brokenOk⟩ fun c => c.noRaw = true := by
  intro q name f hf h i args c hc d hd
  have key : d.noRaw = true ∨ ∃ a, Raw.content a ∈ args ∧ d ∈ a.parts true := by
    rcases docs_method hf with rfl | rfl | rfl | rfl | rfl | rfl
    · rcases args with _ | ⟨_ | _ | _, _ | ⟨_, _⟩⟩ <;> simp [outputFrame] at hc
      subst hc
      simp only [Content.parts, partsP, List.mem_cons, List.mem_append, List.not_mem_nil, or_false] at hd
      left
      rcases hd with rfl | (rfl | rfl) | rfl <;> rfl
    · rcases args with _ | ⟨_ | _ | _, _ | ⟨_, _⟩⟩ <;> simp [syntaxHl] at hc
      subst hc
      simp only [Content.parts, partsP, List.mem_cons, List.append_nil] at hd
      rcases hd with rfl | hd
      · exact .inl rfl
      · exact .inr ⟨_, List.mem_cons_self, hd⟩
    · rcases args with _ | ⟨_ | _ | _, _ | ⟨_, _⟩⟩ <;> simp [columnHeader] at hc
      subst hc
      simp only [Content.parts, partsP, List.mem_cons, List.append_nil] at hd
      rcases hd with rfl | hd
      · exact .inl rfl
      · exact .inr ⟨_, List.mem_cons_self, hd⟩
    · rcases args with _ | ⟨_ | _ | _, rest⟩ <;> simp [columns] at hc
      subst hc
      simp only [Content.parts, partsP, List.mem_cons, List.mem_append, List.append_nil] at hd
      rcases hd with rfl | hd | rfl | hd
      · exact .inl rfl
      · exact .inr ⟨_, List.mem_cons_self, hd⟩
      · exact .inl rfl
      · obtain ⟨x, hx, hd⟩ := mem_partsL hd
        exact .inr ⟨x, List.mem_cons_of_mem _ (mem_contents hx), hd⟩
    · rcases args with _ | ⟨_ | _ | _, _ | ⟨_, _⟩⟩ <;> simp [templateLink] at hc
      subst hc
      simp only [Content.parts, partsP, List.mem_cons, List.append_nil, List.not_mem_nil, or_false] at hd
      left
      rcases hd with rfl | rfl | rfl <;> rfl
    · rcases args with _ | ⟨name | _ | _, _ | ⟨_ | a | _, rest⟩⟩ <;> simp [describeFruit] at hc
      split at hc
      · simp at hc
      · simp at hc
        subst hc
        simp only [Content.parts, List.mem_cons] at hd
        rcases hd with rfl | hd
        · exact .inl rfl
        · obtain ⟨x, hx, hd'⟩ := mem_partsL hd
          clear hd
          simp only [List.mem_append, List.mem_map, List.mem_cons, List.not_mem_nil, or_false] at hx
          rcases hx with ⟨g, -, rfl⟩ | rfl | rfl
          · simp only [Content.parts, if_true, List.mem_cons, List.mem_append, List.not_mem_nil, or_false] at hd'
            rcases hd' with rfl | rfl | hd'
            · exact .inl rfl
            · exact .inl rfl
            · exact .inr ⟨_, List.mem_cons_of_mem _ List.mem_cons_self, hd'⟩
          · simp only [Content.parts, partsL, partsP, List.append_nil, List.mem_cons, List.not_mem_nil, or_false] at hd'
            left
            rcases hd' with rfl | rfl | rfl <;> rfl
          · exact .inr ⟨_, List.mem_cons_of_mem _ List.mem_cons_self, hd'⟩
  exact key

/-- **C98**: so with it, too, what is written in documents is only text on the site. -/
theorem C98_documents {fs : Str → Option FileInfo} {brokenOk : Bool} (hfs : fs [] = none) {s : St}
    (hr : Reach ⟨fs, docsRegistry, docsForeign, brokenOk⟩ s) {S : Site} (hS : ∀ i c, S.force i = some c → c.unstyled [q%"raw-html"] = true)
    (hs : ∀ i, (s.heap.get i).style ≠ q%"raw-html") {n i : Nat} {page : Str} (e : pageWith htmlMode docsHtml S s.heap n i = .ok page) :
    ∃ ps : List Piece, page = ps.flatMap Piece.text ∧ Composed (OfTemplates docsHtml) .text ps .text :=
  C98_only_text (docs_makes fs brokenOk) (fun _ h => h) hfs hr hS hs e

/-! ### Methods of the plugin -/

/-- A successful call of a method: it was handed values of the types it declares, and returned what the call stands for. -/
theorem call_returns {W : World} {k : Nat} {inc : Inc} {fn : Str} {args : List Node} {loc : Location} {i : Nat} {r : Content} {s : St}
    {f : Foreign} (hm : findMethod W (methodName fn) (s.heap.get i).plugins = some (.foreign f))
    {r' : Content} {s' : St} (h : evalNode W k inc (.invoke fn args loc) i r s = (.ok r', s')) :
    ∃ hp vals, WellTyped (f.params, f.variadic) args vals ∧
      ((r' = r ∧ (f.run hp i vals = .nothing ∨ f.run hp i vals = .error none)) ∨
        ∃ c, r' = append r [c] ∧ (f.run hp i vals = .content c ∨ f.run hp i vals = .both c none)) := by
  rw [invoke_run] at h
  cases hp : s.heap.filePath (s.heap.length + 1) i with
  | none => rw [hp] at h; cases h
  | some path =>
    rw [hp, hm] at h
    dsimp only at h
    split at h
    · next ha =>
      have hA : Accepts (f.params, f.variadic) args.length := (arityOk_iff _ _).1 ha
      simp only [M.bind_run, M.bind] at h
      cases hc : convertAll W k i (Method.sig (.foreign f)).1 (Method.sig (.foreign f)).2 (evalArgs W k inc args) (s.calling i loc) with
      | mk x s1 =>
        rw [hc] at h
        cases x with
        | err _ => cases h
        | panic => cases h
        | more => cases h
        | ok vals =>
          dsimp only at h
          unfold callMethod at h
          by_cases hz : vals.any ArgV.isZero = true
          · rw [if_pos hz] at h; cases h
          · rw [if_neg hz] at h
            obtain ⟨l1, l2⟩ := convertAll_typed f.variadic args f.params (s.calling i loc) s1 vals
              (fun e => by rcases hA with h | h
                           · exact h.2
                           · exact absurd e h.1)
              (fun e => by rcases hA with h | h
                           · exact absurd h.1 e
                           · exact h.2) hc (by simpa using hz)
            refine ⟨s1.heap, vals.map ArgV.raw, ⟨by rw [List.length_map, l1]; exact hA, by rw [List.length_map, l1], fun j n v hn hv => ?_⟩, ?_⟩
            · rw [List.getElem?_map] at hv
              cases hj : vals[j]? with
              | none => rw [hj] at hv; cases hv
              | some y => rw [hj] at hv; cases hv; exact l2 j n y hn hj
            · dsimp only at h
              generalize f.run s1.heap i (vals.map ArgV.raw) = ret at h ⊢
              rcases ret with _ | c | (_ | e) | ⟨c, _ | e⟩ | _
              · simp only [finish, M.pure_run] at h
                exact .inl ⟨by injection h with h; injection h with h; exact h.symm, .inl rfl⟩
              · simp only [finish] at h
                split at h
                · cases h
                · simp only [M.pure_run] at h
                  exact .inr ⟨c, by injection h with h; injection h with h; exact h.symm, .inl rfl⟩
              · simp only [finish, M.pure_run] at h
                exact .inl ⟨by injection h with h; injection h with h; exact h.symm, .inr rfl⟩
              · cases h
              · simp only [finish] at h
                split at h
                · cases h
                · simp only [M.pure_run] at h
                  exact .inr ⟨c, by injection h with h; injection h with h; exact h.symm, .inr rfl⟩
              · cases h
              · cases h
    · cases h

theorem filterMap_parts (i : Nat) (name : Str) (d : Content) (l : Location) : ∀ gs : List Str,
    (partsL false (gs.map fun g => .target g l (.str name) d)).filterMap (Content.anchor i) = gs.map fun g => ⟨g, .str name, some i, g, d, l⟩
  | [] => rfl
  | g :: gs => by simp [partsL, Content.parts, Content.anchor, filterMap_parts i name d l gs]

theorem partsL_append (b : Bool) : ∀ xs ys : List Content, partsL b (xs ++ ys) = partsL b xs ++ partsL b ys
  | [], _ => rfl
  | x :: xs, ys => by simp [partsL, partsL_append b xs ys]

theorem html_fruits (I : Inner) (name : Str) (d : Content) (l : Location) (cs : List Content) : ∀ gs : List Str,
    htmlL I (gs.map (fun g => .target g l (.str name) d) ++ cs) =
      (htmlL I cs).map fun ts => gs.map (fun g => q%"<a id=\"" ++ escAttr g ++ q%"\"></a>") ++ ts
  | [] => by rw [List.map_nil, List.nil_append]; cases htmlL I cs <;> rfl
  | g :: gs => by
    rw [List.map_cons, List.cons_append, htmlL, html_fruits I name d l cs gs, Content.html]
    cases htmlL I cs <;> rfl

/-- **C98**: what a successful `\describe-fruit` stands for. The fruit has a name that is not empty; under each of the tags given, or under
its name if none is given, the fruit can be referred to and found, with its name as title and its definition as content; and on a page
stand the anchors, the name in bold in a paragraph of its own and the definition. -/
theorem C98_fruit {W : World} {k : Nat} {inc : Inc} {args : List Node} {loc : Location} {i : Nat} {r : Content} {s : St}
    (hm : findMethod W q%"DescribeFruit" (s.heap.get i).plugins = some (.foreign describeFruit))
    {r' : Content} {s' : St} (h : evalNode W k inc (.invoke q%"describe-fruit" args loc) i r s = (.ok r', s')) :
    ∃ (name : Str) (d : Content) (tags : List Str) (at_ : Location) (c : Content), args.length = tags.length + 2 ∧ name ≠ [] ∧ d.isNil = false ∧
      r' = append r [c] ∧
      c.anchors false i = ((if tags = [] then [name] else tags).map fun g => ⟨g, .str name, some i, g, d, at_⟩) ++ d.anchors false i ∧
      ∀ (I : Inner) (t : Str), c.html I = .ok t ↔ ∃ x, d.html I = .ok x ∧
        t = (if tags = [] then [name] else tags).flatMap (fun g => q%"<a id=\"" ++ escAttr g ++ q%"\"></a>") ++
          q%"<p><strong>" ++ escText name ++ q%"</strong></p>" ++ x := by
  obtain ⟨hp, vals, ⟨hA, hl, ht⟩, hv⟩ := call_returns (fn := q%"describe-fruit") hm h
  have hstr : ∀ (as : List Node) (vs : List Raw) (n : Nat), vs.length = as.length → 2 ≤ n →
      (∀ (j : Nat) (a : Node) (v : Raw), as[j]? = some a → vs[j]? = some v →
        ∃ t, typeAt (describeFruit.params, describeFruit.variadic) (j + n) = some t ∧ HasType a t v) →
      (Raw.strings vs).length = vs.length := by
    intro as
    induction as with
    | nil => intro vs n e _ _; cases vs with
      | nil => rfl
      | cons _ _ => cases e
    | cons a as ih =>
      intro vs n e hn ht
      cases vs with
      | nil => rfl
      | cons v vs =>
        obtain ⟨t, h1, h2⟩ := ht 0 a v rfl rfl
        have e1 : t = .string := by
          obtain ⟨m, rfl⟩ : ∃ m, n = m + 2 := ⟨n - 2, by omega⟩
          simp only [Nat.zero_add, describeFruit, typeAt] at h1
          injection h1 with h1
          exact h1.symm
        subst e1
        have := ih vs (n + 1) (by simpa using e) (by omega) fun j a' v' h1 h2 => by
          have := ht (j + 1) a' v' h1 h2
          rwa [show j + 1 + n = j + (n + 1) by omega] at this
        cases v with
        | str s => simp [Raw.strings, this]
        | content _ => cases h2
        | node _ => cases h2
  rcases args with _ | ⟨a, _ | ⟨b, as⟩⟩
  · rcases hA with h | h
    · cases h.1
    · rw [hl] at h; exact absurd h.2 (by decide)
  · rcases hA with h | h
    · cases h.1
    · rw [hl] at h; exact absurd h.2 (show ¬ 2 ≤ 1 by decide)
  rcases vals with _ | ⟨v, _ | ⟨w, vs⟩⟩
  · cases hl
  · cases hl
  obtain ⟨t1, h1, h2⟩ := ht 0 a v rfl rfl
  obtain ⟨t2, h3, h4⟩ := ht 1 b w rfl rfl
  cases h1
  cases h3
  cases v with
  | content _ => cases h2
  | node _ => cases h2
  | str name =>
  cases w with
  | str _ => cases h4
  | node _ => cases h4
  | content d =>
  have hl' : vs.length = as.length := by simpa using hl
  have hn := hstr as vs 2 hl' (by omega) fun j a' v' h1 h2 => ht (j + 2) a' v' h1 h2
  by_cases he : name = []
  · simp [describeFruit, he] at hv
  · simp only [describeFruit, if_neg he] at hv
    rcases hv with ⟨-, h | h⟩ | ⟨c, e, h | h⟩
    · cases h
    · cases h
    · cases h
    · injection h with h _
      refine ⟨name, d, Raw.strings vs, (hp.get i).invokeLoc, c, ?_, he, h4, e, ?_, ?_⟩
      · rw [hn, hl']; rfl
      · subst h
        rw [Content.anchors, Content.parts, List.filterMap_cons_none rfl, partsL_append, List.filterMap_append, filterMap_parts]
        simp only [partsL, Content.parts, partsP, List.append_nil]
        rfl
      · intro I t
        subst h
        rw [Content.html, html_fruits]
        simp only [htmlL, Content.html]
        cases d.html I with
        | ok x =>
          constructor
          · intro e
            injection e with e
            refine ⟨x, rfl, ?_⟩
            rw [← e]
            simp [List.flatMap, joinWith]
          · rintro ⟨y, e, rfl⟩
            cases e
            refine congrArg Res.ok ?_
            simp [List.flatMap, joinWith]
        | err _ => exact ⟨fun e => (by cases e), fun ⟨_, e, _⟩ => (by cases e)⟩
        | panic => exact ⟨fun e => (by cases e), fun ⟨_, e, _⟩ => (by cases e)⟩
        | more => exact ⟨fun e => (by cases e), fun ⟨_, e, _⟩ => (by cases e)⟩

/-- What the plugin returns has no holes, so that all targets become tags (C42). -/
theorem C98_solid (fs : Str → Option FileInfo) (brokenOk : Bool) : World.SolidPlugins ⟨fs, docsRegistry, docsForeign, brokenOk⟩ := by
  intro q name f hf h i args ha c hc hn
  rcases docs_method hf with rfl | rfl | rfl | rfl | rfl | rfl
  · rcases args with _ | ⟨_ | _ | _, _ | ⟨_, _⟩⟩ <;> simp [outputFrame] at hc
    subst hc
    rfl
  · rcases args with _ | ⟨_ | a | _, _ | ⟨_, _⟩⟩ <;> simp [syntaxHl] at hc
    subst hc
    have := ha a List.mem_cons_self
    simp only [Content.solid, Bool.and_eq_true] at this
    simp only [Content.solid, Content.all, allP, Content.noHoles, this.1, this.2]
    rfl
  · rcases args with _ | ⟨_ | a | _, _ | ⟨_, _⟩⟩ <;> simp [columnHeader] at hc
    subst hc
    have := ha a List.mem_cons_self
    simp only [Content.solid, Bool.and_eq_true] at this
    simp only [Content.solid, Content.all, allP, Content.noHoles, this.1, this.2]
    rfl
  · rcases args with _ | ⟨_ | a | _, rest⟩ <;> simp [columns] at hc
    subst hc
    have h1 := ha a List.mem_cons_self
    have h2 : ∀ x ∈ Raw.contents rest, x.solid = true := fun x hx => ha x (List.mem_cons_of_mem _ (mem_contents hx))
    simp only [Content.solid, Bool.and_eq_true] at h1 h2
    have h3 : allL Content.noHoles (Raw.contents rest) = true := allL_iff.mpr fun x hx => (h2 x hx).2
    have h4 : (Raw.contents rest).all (!·.isNil) = true := List.all_eq_true.mpr fun x hx => (h2 x hx).1
    simp only [Content.solid, Content.all, allP, Content.noHoles, h1.1, h1.2, h3, h4]
    rfl
  · rcases args with _ | ⟨_ | _ | _, _ | ⟨_, _⟩⟩ <;> simp [templateLink] at hc
    subst hc
    rfl
  · rcases args with _ | ⟨name | _ | _, _ | ⟨_ | a | _, rest⟩⟩ <;> simp [describeFruit] at hc
    split at hc
    · simp at hc
    · simp at hc
      subst hc
      have h1 := ha a (List.mem_cons_of_mem _ List.mem_cons_self)
      simp only [Content.solid, Bool.and_eq_true] at h1
      have h3 : ∀ x ∈ ((if Raw.strings rest = [] then [name] else Raw.strings rest).map
          (fun g => Content.target g (h.get i).invokeLoc (.str name) a) ++ [.para [.styled q%"bold" false (.str name) []], a]),
          x.isNil = false ∧ x.all Content.noHoles = true := by
        intro x hx
        simp only [List.mem_append, List.mem_map, List.mem_cons, List.not_mem_nil, or_false] at hx
        rcases hx with ⟨g, -, rfl⟩ | rfl | rfl
        · simp only [Content.all, Content.noHoles, h1.2]
          exact ⟨rfl, rfl⟩
        · exact ⟨rfl, rfl⟩
        · exact ⟨by simpa using h1.1, h1.2⟩
      simp only [Content.solid, Content.all, Bool.and_eq_true]
      refine ⟨rfl, ?_, allL_iff.mpr fun x hx => (h3 x hx).2⟩
      rw [Content.noHoles, List.all_eq_true]
      intro x hx
      rw [(h3 x hx).1]
      rfl

/-- A page of a small book, with two sections, of which the second has one. -/
def docsExample (i : Nat) : Option Str :=
  match loadText q%"\\title{A}{t}\n\n\\split-sections\n\n\\section{\\title{B\\aux{ & b}}\n\nx\n}\n\n\\section{\\title{C}\n\n\\section{\\title{D}\n\ny\n}\n}\n" with
  | (.ok _, s) => match pageWith htmlMode docsHtml plainSite s.heap 30 i with
    | .ok t => some t
    | _ => none
  | _ => none

/-- On the page of the last section, the second entry of the navigation is marked. -/
example : docsExample 3 = some (docsPage false q%"D" q%"t.html" [docsEntry false q%"b.html" q%"B", docsEntry true q%"c.html" q%"C"]
    q%"<h2 class=\"section-header\"><a id=\"d\"></a><span class=\"section-number\"><a href=\"c.html#d\">2.1</a> </span>D</h2>\n\n  y \n\n\n  \n") := by
  decide +kernel

/-- The program for the documentation, with one file. -/
def docsWorld (text : Str) : World :=
  ⟨fun p => if p = q%"x.lit" then some ⟨0, some text⟩ else none, docsRegistry, docsForeign, false⟩

/-- Sections that use the plugin find its methods. -/
example : findMethod (docsWorld []) q%"DescribeFruit" [0, 1] = some (.foreign describeFruit) := rfl

/-- A fruit is described under two names, which a reference and the search index can use. -/
example : (match loadFile (docsWorld q%"\\title{A}\n\n\\use-plugin{booklitdoc}\n\n\\describe-fruit{<kiwi>}{green}{kiwi}{k}\n\n\\reference{k}\n") 5 none q%"x.lit" [0] ⟨[], []⟩ with
    | (.ok i, s) => match pageWith htmlMode docsHtml plainSite s.heap 30 i with
      | .ok t => some (((s.heap.get i).tags.map Tag.name), t)
      | _ => none
    | _ => none) = some ([q%"a", q%"kiwi", q%"k"], docsPage true q%"A" q%"a.html" []
      q%"<h1 class=\"section-header\"><a id=\"a\"></a>A</h1>\n\n<a id=\"kiwi\"></a><a id=\"k\"></a><p><strong>&lt;kiwi&gt;</strong></p>green<p><a href=\"a.html#k\">&lt;kiwi&gt;</a></p>\n\n\n  \n") := by
  decide +kernel

end Booklit.Props
