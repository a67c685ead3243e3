import Verif.Lemmas.DocsLitL
import Verif.Lemmas.MsRefsL
import Verif.Lemmas.MsLettersL
import Verif.Spec.Parts

/-!
Booklit code in Booklit's documentation: C103.
-/

namespace Booklit.Props

open Booklit

/-- A call in highlighted code: its name refers to what is tagged so, if anything is. -/
def callPart (i : Nat) (p : Piece) : Content :=
  .seq [.str ['\\'], .ref i p.text.tail (.str p.text.tail) true Location.zero]

/-- A piece of the highlighter's output as it is. -/
def rawPart (p : Piece) : Content := .styled q%"raw-html" false (.str p.text) []

/-- An argument in highlighted code. -/
def argPart (p : Piece) : Content :=
  .seq [.str ['{'], .styled q%"italic" false (.str (p.text.drop 1).dropLast) [], .str ['}']]

theorem Cut.hits {hit : Str → Str → Prop} {s : Str} {ps : List Piece} (h : Cut hit s ps) : ∀ p ∈ ps, p.hit = true → ∃ r, hit p.text r := by
  induction h with
  | done => intro p hp; cases hp
  | hit hh _ ih =>
    intro p hp _
    rcases List.mem_cons.1 hp with rfl | hp
    · exact ⟨_, hh⟩
    · exact ih p hp ‹_›
  | keep _ _ _ ih =>
    intro p hp ht
    rcases List.mem_cons.1 hp with rfl | hp
    · cases ht
    · exact ih p hp ht

theorem Cut.text {hit : Str → Str → Prop} {s : Str} {ps : List Piece} (h : Cut hit s ps) : piecesText ps = s := by
  induction h with
  | done => rfl
  | hit _ _ ih => rw [piecesText, ih]
  | keep _ _ _ ih => rw [piecesText, ih]

theorem Cut.inv {hit : Str → Str → Prop} {s : Str} {ps : List Piece} (h : Cut hit s ps) :
    (s = [] ∧ ps = []) ∨ (∃ m r qs, s = m ++ r ∧ ps = ⟨true, m⟩ :: qs ∧ hit m r ∧ Cut hit r qs) ∨
      ∃ u r qs, s = u ++ r ∧ ps = ⟨false, u⟩ :: qs ∧ u ≠ [] ∧ (∀ v w m x, u = v ++ w → w ≠ [] → w ++ r = m ++ x → ¬ hit m x) ∧ Cut hit r qs := by
  cases h with
  | done => exact .inl ⟨rfl, rfl⟩
  | hit h1 h2 => exact .inr (.inl ⟨_, _, _, rfl, rfl, h1, h2⟩)
  | keep h1 h2 h3 => exact .inr (.inr ⟨_, _, _, rfl, rfl, h1, h2, h3⟩)

theorem tidy_rest {p : Piece} {ps : List Piece} (h : Tidy (p :: ps)) : Tidy ps := by
  cases ps with
  | nil => trivial
  | cons q qs => exact h.2

theorem keep_shorter {hit : Str → Str → Prop} {u r u' r' : Str} {ps : List Piece} (hc : Cut hit r ps) (ht : Tidy (⟨false, u⟩ :: ps))
    (hk : ∀ v w m x, u' = v ++ w → w ≠ [] → w ++ r' = m ++ x → ¬ hit m x) (e : u ++ r = u' ++ r') : u'.length ≤ u.length := by
  refine Nat.le_of_not_lt fun hlt => ?_
  obtain ⟨w, hw⟩ : ∃ w, u' = u ++ w := by
    have := List.append_eq_append_iff.1 e
    rcases this with ⟨w, h1, _⟩ | ⟨w, h1, _⟩
    · exact ⟨w, h1⟩
    · rw [h1, List.length_append] at hlt
      omega
  subst hw
  rw [List.append_assoc] at e
  have er := List.append_cancel_left e
  have hwn : w ≠ [] := by
    rintro rfl
    simp at hlt
  rcases Cut.inv hc with ⟨h1, _⟩ | ⟨m, x, qs, h1, h2, h3, _⟩ | ⟨v, x, qs, h1, h2, _⟩
  · rw [h1] at er
    exact hwn (List.append_eq_nil_iff.1 er.symm).1
  · exact hk u w m x rfl hwn (by rw [← er, h1]) h3
  · subst h2
    have := (ht.1 rfl).2
    cases this

/-- There is only one way to cut a text at the matches of a pattern. -/
theorem Cut.unique {hit : Str → Str → Prop} (det : ∀ m r m' r', m ++ r = m' ++ r' → hit m r → hit m' r' → m = m')
    (ne : ∀ m r, hit m r → m ≠ []) {s : Str} {ps : List Piece} (h : Cut hit s ps) : ∀ {qs : List Piece}, Tidy ps → Cut hit s qs → Tidy qs → ps = qs := by
  induction h with
  | done =>
    intro qs _ h' _
    rcases Cut.inv h' with ⟨_, rfl⟩ | ⟨m, r, _, h1, _, h3, _⟩ | ⟨u, r, _, h1, _, h3, _⟩
    · rfl
    · exact absurd (List.append_eq_nil_iff.1 h1.symm).1 (ne _ _ h3)
    · exact absurd (List.append_eq_nil_iff.1 h1.symm).1 h3
  | hit hh _ ih =>
    intro qs ht h' ht'
    rcases Cut.inv h' with ⟨h1, _⟩ | ⟨m, r, _, h1, rfl, h3, h4⟩ | ⟨u, r, _, h1, _, h3, h4, _⟩
    · exact absurd (List.append_eq_nil_iff.1 h1).1 (ne _ _ hh)
    · have e := det _ _ _ _ h1 hh h3
      subst e
      have er := List.append_cancel_left h1
      subst er
      rw [ih (tidy_rest ht) h4 (tidy_rest ht')]
    · exact absurd hh (h4 [] u _ _ rfl h3 h1.symm)
  | keep hu hk hc ih =>
    intro qs ht h' ht'
    rcases Cut.inv h' with ⟨h1, _⟩ | ⟨m, r, _, h1, rfl, h3, h4⟩ | ⟨u, r, _, h1, rfl, h3, h4, h5⟩
    · exact absurd (List.append_eq_nil_iff.1 h1).1 hu
    · exact absurd h3 (hk [] _ _ _ rfl hu h1)
    · have l1 := keep_shorter hc ht h4 h1
      have l2 := keep_shorter h5 ht' hk h1.symm
      obtain ⟨e1, e2⟩ := List.append_inj h1 (by omega)
      subst e1 e2
      rw [ih (tidy_rest ht) h5 (tidy_rest ht')]

theorem fn_split : ∀ {a r b s : Str}, a ++ r = b ++ s → (∀ c ∈ a, isFnChar c = true) → (∀ c ∈ r.head?, isFnChar c = false) →
    (∀ c ∈ b, isFnChar c = true) → (∀ c ∈ s.head?, isFnChar c = false) → a = b := by
  intro a r b s e ha hr hb hs
  rw [← takeWhile_cut isFnChar a r ha hr, e, takeWhile_cut isFnChar b s hb hs]

/-- **C103**: the pieces are determined: no other way to cut the text has the calls, and only them, as hits. -/
theorem C103_calls_unique {s : Str} {ps qs : List Piece} (h : Cut CallHit s ps) (ht : Tidy ps) (h' : Cut CallHit s qs) (ht' : Tidy qs) : ps = qs := by
  refine Cut.unique ?_ ?_ h ht h' ht'
  · rintro m r m' r' e ⟨a, rfl, _, ha, hr⟩ ⟨b, rfl, _, hb, hs⟩
    rw [List.cons_append, List.cons_append, List.cons.injEq] at e
    rw [fn_split e.2 ha hr hb hs]
  · rintro m r ⟨a, rfl, _⟩ e
    cases e

/-- The same for arguments. -/
theorem C103_args_unique {s : Str} {ps qs : List Piece} (h : Cut ArgHit s ps) (ht : Tidy ps) (h' : Cut ArgHit s qs) (ht' : Tidy qs) : ps = qs := by
  refine Cut.unique ?_ ?_ h ht h' ht'
  · rintro m r m' r' e ⟨a, rfl, _, ha⟩ ⟨b, rfl, _, hb⟩
    simp only [List.append_assoc] at e
    obtain ⟨_, e⟩ := List.cons.inj e
    have ta := takeWhile_cut (fun x => decide (x ≠ '}')) a (['}'] ++ r) (fun c hc => decide_eq_true fun e => ha (e ▸ hc)) (fun c hc => by cases hc; rfl)
    have tb := takeWhile_cut (fun x => decide (x ≠ '}')) b (['}'] ++ r') (fun c hc => decide_eq_true fun e => hb (e ▸ hc)) (fun c hc => by cases hc; rfl)
    rw [← ta]
    have e : a ++ (['}'] ++ r) = b ++ (['}'] ++ r') := e
    rw [e, tb]
  · rintro m r ⟨a, rfl, _⟩ e
    cases e

theorem call_make (i : Nat) {p : Piece} (h : ∃ r, CallHit p.text r) : (linkTransformer i).make p.text = callPart i p := by
  obtain ⟨r, name, e, _⟩ := h
  obtain ⟨hit, text⟩ := p
  cases e
  rfl

theorem arg_make {p : Piece} (h : ∃ r, ArgHit p.text r) : argTransformer.make p.text = argPart p := by
  obtain ⟨r, arg, e, _, _⟩ := h
  obtain ⟨hit, text⟩ := p
  cases e
  change Content.seq [_, .styled _ _ (.str (trimPrefix1 '{' (trimSuffix1 '}' ('{' :: arg ++ ['}'])))) _, _] = Content.seq [_, .styled _ _ (.str (arg ++ ['}']).dropLast) _, _]
  rw [trimSuffix1, if_pos (by rw [List.getLast?_append]; rfl), List.dropLast_concat, List.dropLast_concat]
  rfl

/-- **C103**: code shown with `\lit-syntax` is the output of the highlighter cut into pieces: every call in it — a backslash and the
longest name after it — and what stands between the calls. The name of a call becomes an optional reference, from the section in
which the code is, to what is tagged with it; everything else stays as the highlighter made it. -/
theorem C103_lit (h : Heap) (brokenOk : Bool) (k : Nat) (highlight : Str → Str → Bool → Option Str) (i : Nat) (code : Content)
    (text html : Str) (flow : Bool) (h1 : h.text brokenOk k code = .ok text) (h2 : isFlow code = some flow)
    (h3 : highlight q%"lit" text flow = some html) :
    ∃ ps : List Piece, Cut CallHit html ps ∧ Tidy ps ∧
      litSyntax h brokenOk k highlight i code =
        .ok (.styled (if flow then q%"lit-flow" else q%"lit-block") false
          (.styled (if flow then q%"code-flow" else q%"code-block") (!flow)
            (.seq (ps.map fun p => if p.hit then callPart i p else rawPart p)) [(q%"Language", .str q%"lit")]) []) := by
  obtain ⟨ps, c1, c2, c3⟩ := call_fits.pieces (linkTransformer i).make html
  refine ⟨ps, c1, c2, ?_⟩
  rw [litSyntax, syntaxTransform, h1]
  simp only [Res.bind, h2, h3, onAllOf, Transformer.onAll, List.append_nil]
  rw [show (linkTransformer i).transformAll html = _ from c3]
  have := wrapRaw_map (linkTransformer i) (fun _ => rfl) ps
  rw [show (ps.map fun p => if p.hit then (linkTransformer i).make p.text else Content.str p.text) = _ from rfl] at this
  rw [this]
  congr 4
  refine List.map_congr_left fun p hp => ?_
  cases hh : p.hit with
  | true => simp only [if_true]; exact call_make i (Cut.hits c1 p hp hh)
  | false => rfl

-- The highlighter puts the code in a tag; one call is in it, and a backslash without a name.
example : findAll callLen 0 0 q%"<b>\\bold-it{x}\\{</b>" = [(3, 11)] ∧ findAll argLen 0 0 q%"<b>\\bold-it{x}\\{</b>" = [(11, 14)] := by decide

example : (litSyntax [] false 9 (fun _ t _ => some (q%"<b>" ++ t ++ q%"</b>")) 0 (.str q%"\\bold-it{x}")).map Content.isStr = .ok false := rfl

/-- If the code cannot be shown as text or highlighted, there is no result. -/
theorem C103_lit_fails (h : Heap) (brokenOk : Bool) (k : Nat) (highlight : Str → Str → Bool → Option Str) (i : Nat) (code c : Content)
    (he : litSyntax h brokenOk k highlight i code = .ok c) :
    ∃ text flow html, h.text brokenOk k code = .ok text ∧ isFlow code = some flow ∧ highlight q%"lit" text flow = some html := by
  rw [litSyntax, syntaxTransform] at he
  cases ht : h.text brokenOk k code with
  | ok text =>
    rw [ht] at he
    simp only [Res.bind] at he
    cases hf : isFlow code with
    | none => rw [hf] at he; cases he
    | some flow =>
      rw [hf] at he
      simp only at he
      cases hh : highlight q%"lit" text flow with
      | none => rw [hh] at he; cases he
      | some html => exact ⟨text, flow, html, rfl, rfl, hh⟩
  | err _ => rw [ht] at he; cases he
  | panic => rw [ht] at he; cases he
  | more => rw [ht] at he; cases he

/-! ### How it is shown -/

theorem fnChar_esc {c : Char} (h : isFnChar c = true) : escChar c = [c] := by
  have h' : c = '-' ∨ ('a' ≤ c ∧ c ≤ 'z') := by simpa [isFnChar] using h
  have hn : ∀ d : Char, (d.toNat < 45 ∨ (45 < d.toNat ∧ d.toNat < 97)) → c ≠ d := by
    rintro d hd rfl
    rcases h' with rfl | ⟨h1, h2⟩
    · exact absurd hd (by decide)
    · have h1 : 'a'.toNat ≤ c.toNat := h1
      have : 'a'.toNat = 97 := rfl
      omega
  unfold escChar
  simp [hn '<' (by decide), hn '>' (by decide), hn '&' (by decide), hn '"' (by decide), hn '\'' (by decide), hn '+' (by decide), hn '\x00' (by decide)]

/-- How a piece is shown. -/
def ShowsPiece (h : Heap) (t : Tree) (p : Piece) (x : Str) : Prop :=
  if p.hit then
    match t.tagsNamed h p.text.tail with
    | [] => x = p.text
    | g :: _ => ∃ j u, g.sec = some j ∧ Ends (fun n => h.sectionURL htmlExt n j g.anchor) u ∧
        x = q%"\\<a href=\"" ++ escURL u ++ q%"\">" ++ p.text.tail ++ q%"</a>"
  else x = p.text

theorem raw_shown {h : Heap} {S : Site} (p : Piece) : ∀ n, h.html S (n + 1) (rawPart p) = .ok p.text := by
  intro n
  rw [Heap.html, rawPart, Content.html, if_neg (by decide), if_pos rfl]
  show (h.text S.brokenOk n (.str p.text)).recover = _
  cases n <;> rfl

theorem call_shown {h : Heap} {t : Tree} (b : Book h t) (own : ∀ j ∈ t.ids, ∀ g ∈ (h.get j).tags, g.sec = some j) {S : Site} {i : Nat}
    (hi : i ∈ t.ids) {p : Piece} (hp : p.hit = true) (hc : ∃ r, CallHit p.text r) (hg : (t.tagsNamed h p.text.tail).length ≤ 1) :
    ∃ x N, (∀ n, N ≤ n → h.html S n (callPart i p) = .ok x) ∧ ShowsPiece h t p x := by
  obtain ⟨r, name, e, hne, ha, _⟩ := hc
  obtain ⟨hit, text⟩ := p
  cases hp
  cases e
  simp only [List.tail_cons] at hg
  obtain ⟨z, hz, rfl⟩ := Tree.mem_ids.1 hi
  obtain ⟨r, hr, hm⟩ := C22_references b z hz name true
  have hesc : escText name = name := Ms.escText_same fun c hc => fnChar_esc (ha c hc)
  have key : ∀ x N, (∀ m, N ≤ m → h.refHtml S m (h.html S m) z.root name (.str name) true Location.zero = .ok x) →
      ∀ n, N + 1 ≤ n → h.html S n (callPart z.root ⟨true, '\\' :: name⟩) = .ok ('\\' :: x) := by
    intro x N hx n hn
    obtain ⟨m, rfl⟩ : ∃ m, n = m + 1 := ⟨n - 1, by omega⟩
    have := hx m (by omega)
    rw [Heap.html, callPart]
    simp only [Content.html, htmlL, Res.bind, List.tail_cons, this, Res.map]
    have : escText ['\\'] = ['\\'] := by decide
    rw [this]
    simp
  have hstr : ∀ m, h.html S m (.str name) = .ok name := by
    intro m
    cases m <;> rw [Heap.html, Content.html, hesc]
  match hgs : t.tagsNamed h name, hm with
  | [], hm =>
    obtain ⟨N, hN⟩ := hr
    refine ⟨'\\' :: name, N + 1, key name N fun m hle => ?_, ?_⟩
    · have e1 : h.refTag m S.brokenOk z.root name true Location.zero = some .nothing := by
        rw [Heap.refTag, show h.resolve m z.root name true = _ from hN m hle, hm]
        cases S.brokenOk <;> rfl
      rw [Heap.refHtml, e1]
      exact hstr m
    · rw [ShowsPiece, if_pos rfl, List.tail_cons, hgs]
  | [g], hm =>
    subst hm
    obtain ⟨-, j, hj, hgm⟩ := Ms.mem_tagsNamed (hgs ▸ List.mem_singleton.2 rfl : g ∈ t.tagsNamed h name)
    obtain ⟨u, hu⟩ := url_in b hj g.anchor
    obtain ⟨N1, h1⟩ := hr
    obtain ⟨N2, h2⟩ := hu
    refine ⟨'\\' :: (q%"<a href=\"" ++ escURL u ++ q%"\">" ++ name ++ q%"</a>"), N1 + N2 + 1, key _ (N1 + N2) fun m hle => ?_, ?_⟩
    · have e1 : h.refTag m S.brokenOk z.root name true Location.zero = some (.tag g) := by
        rw [Heap.refTag, show h.resolve m z.root name true = _ from h1 m (by omega)]
        cases S.brokenOk <;> rfl
      have e2 : h.sectionURL htmlExt m j g.anchor = some u := h2 m (by omega)
      rw [Heap.refHtml, e1]
      simp only [own j hj g hgm, e2, Res.ofFuel, Res.bind, Content.isNil, Bool.false_eq_true, if_false]
      show (h.html S m (.str name)).map _ = _
      rw [hstr]
      rfl
    · rw [ShowsPiece, if_pos rfl, List.tail_cons, hgs]
      exact ⟨j, u, own j hj g hgm, ⟨N2, h2⟩, rfl⟩
  | _ :: _ :: _, _ => rw [hgs] at hg; simp at hg

theorem pieces_shown {h : Heap} {S : Site} {f : Piece → Content} {R : Piece → Str → Prop} : ∀ {ps : List Piece},
    (∀ p ∈ ps, ∃ x N, (∀ n, N ≤ n → h.html S n (f p) = .ok x) ∧ R p x) →
    ∃ xs N, (∀ n, N ≤ n → h.html S n (.seq (ps.map f)) = .ok xs.flatten) ∧ Each R ps xs
  | [], _ => ⟨[], 0, fun n _ => by cases n <;> rfl, .nil⟩
  | p :: ps, hp => by
    obtain ⟨x, N1, h1, hR⟩ := hp p List.mem_cons_self
    obtain ⟨xs, N2, h2, hE⟩ := pieces_shown (ps := ps) fun q hq => hp q (List.mem_cons_of_mem _ hq)
    refine ⟨x :: xs, N1 + N2, fun n hn => ?_, .cons hR hE⟩
    have a1 := h1 n (by omega)
    have a2 := h2 n (by omega)
    cases n with
    | zero =>
      rw [Heap.html] at a1 a2 ⊢
      rw [Content.html] at a2 ⊢
      rw [List.map_cons, htmlL, a1]
      revert a2
      cases htmlL _ (ps.map f) <;> intro a2 <;> simp only [Res.map, Res.ok.injEq, reduceCtorEq] at a2
      simp only [Res.bind, Res.map, List.flatten_cons, a2]
    | succ n =>
      rw [Heap.html] at a1 a2 ⊢
      rw [Content.html] at a2 ⊢
      rw [List.map_cons, htmlL, a1]
      revert a2
      cases htmlL _ (ps.map f) <;> intro a2 <;> simp only [Res.map, Res.ok.injEq, reduceCtorEq] at a2
      simp only [Res.bind, Res.map, List.flatten_cons, a2]

/-- **C103**: on a page the code is the highlighter's output in which every call of something that is tagged in the book is a link to
where the book documents it. Calls of other things and all that is no call are there unchanged. (No called name is tagged twice.) -/
theorem C103_shown {h : Heap} {t : Tree} (b : Book h t) (own : ∀ j ∈ t.ids, ∀ g ∈ (h.get j).tags, g.sec = some j) (S : Site) {i : Nat}
    (hi : i ∈ t.ids) {html : Str} {ps : List Piece} (hc : Cut CallHit html ps)
    (hg : ∀ p ∈ ps, p.hit = true → (t.tagsNamed h p.text.tail).length ≤ 1) :
    ∃ xs N, (∀ n, N ≤ n → h.html S n (.seq (ps.map fun p => if p.hit then callPart i p else rawPart p)) = .ok xs.flatten) ∧
      Each (ShowsPiece h t) ps xs := by
  refine pieces_shown fun p hp => ?_
  cases hh : p.hit with
  | true => exact call_shown b own hi hh (Cut.hits hc p hp hh) (hg p hp hh)
  | false =>
    refine ⟨p.text, 1, fun n hn => ?_, by rw [ShowsPiece, hh]; rfl⟩
    obtain ⟨m, rfl⟩ : ∃ m, n = m + 1 := ⟨n - 1, by omega⟩
    exact raw_shown p m

/-- The sample book, with tags that know their sections. -/
def codeHeap : Heap := sampleHeap.zipIdx.map fun x =>
  let g : Tag := ⟨x.1.primaryTag.name, x.1.title, some x.2, [], .nil, Location.zero⟩
  { x.1 with primaryTag := g, tags := [g] }

-- In it there is a tag `e` but none called `zz`.
example : Book codeHeap sampleTree := .of_check (by decide) (by decide) (by decide)

example : (∀ j ∈ sampleTree.ids, ∀ g ∈ (codeHeap.get j).tags, g.sec = some j) ∧ 3 ∈ sampleTree.ids ∧
    (sampleTree.tagsNamed codeHeap q%"e").length = 1 ∧ (sampleTree.tagsNamed codeHeap q%"zz").length = 0 := by decide

example : (match codeHeap.html ⟨false, fun _ => none⟩ 20 (.seq ([⟨false, q%"<b>"⟩, ⟨true, q%"\\e"⟩, ⟨false, q%"{x}"⟩, ⟨true, q%"\\zz"⟩].map fun p =>
    if p.hit then callPart 3 p else rawPart p)) with
  | .ok x => some x
  | _ => none) = some q%"<b>\\<a href=\"e.html\">e</a>{x}\\zz" := by decide

/-! ### Definitions -/

theorem onAll_thumb (i : Nat) (sub : Str → List Piece) (hs : ∀ u, Cut ArgHit u (sub u) ∧
      argTransformer.transformAll u = (sub u).map fun p => if p.hit then argTransformer.make p.text else .str p.text) :
    ∀ ps : List Piece, wrapRaw (argTransformer.onAll (ps.map fun p => if p.hit then callPart i p else .str p.text)) =
      ps.flatMap fun p => if p.hit then [callPart i p] else (sub p.text).map fun q => if q.hit then argPart q else rawPart q
  | [] => rfl
  | p :: ps => by
    have app : ∀ (as bs : List Content), wrapRaw (as ++ bs) = wrapRaw as ++ wrapRaw bs := by
      intro as bs
      induction as with
      | nil => rfl
      | cons a as ih =>
        rw [List.cons_append]
        cases a <;> simp only [wrapRaw, ih, List.cons_append]
    rw [List.map_cons, List.flatMap_cons, ← onAll_thumb i sub hs ps]
    cases hh : p.hit with
    | true => rfl
    | false =>
      simp only [Bool.false_eq_true, if_false, Transformer.onAll]
      rw [app, (hs p.text).2, wrapRaw_map argTransformer (fun _ => rfl)]
      congr 1
      refine List.map_congr_left fun q hq => ?_
      cases hq' : q.hit with
      | true => simp only [if_true]; exact arg_make (Cut.hits (hs p.text).1 q hq hq')
      | false => rfl

/-- The signature of a function, as written in a call of it. -/
def signature (fn : Str) (args : List Str) : Str := '\\' :: fn ++ args.flatMap fun a => '{' :: a ++ ['}']

theorem renderArgs_texts (spell : Node → Str) (loc : Location) : ∀ args : List Str,
    renderArgs spell (args.map fun a => .seq [.str a]) = some (args.flatMap fun a => '{' :: a ++ ['}'])
  | [] => rfl
  | a :: as => by
    rw [List.map_cons, renderArgs, renderArgs_texts spell loc as]
    simp

/-- **C103**: `\define` gives what was written about a function, with a thumbnail: a target named like the function, at the place of the
call, with the highlighted name as its title, and the highlighted signature, in which calls are references and arguments are set in
italics. Arguments are texts here. -/
theorem C103_define (h : Heap) (brokenOk : Bool) (k : Nat) (highlight : Str → Str → Bool → Option Str) (spell : Node → Str) (i : Nat)
    (fn : Str) (args : List Str) (loc : Location) (rest : List Node) (content : Content) (html1 html2 : Str)
    (h1 : highlight q%"lit" ('\\' :: fn) true = some html1) (h2 : highlight q%"lit" (signature fn args) true = some html2) :
    ∃ (ps : List Piece) (sub : Str → List Piece), Cut CallHit html2 ps ∧ Tidy ps ∧ (∀ u, Cut ArgHit u (sub u) ∧ Tidy (sub u)) ∧
      define h brokenOk k highlight spell i (.seq (.invoke fn (args.map fun a => .seq [.str a]) loc :: rest)) content =
        .ok (.styled q%"definition" false content [(q%"Thumb", .seq
          [.target fn (h.get i).invokeLoc
            (.styled q%"code-flow" false (.seq [.styled q%"raw-html" false (.str html1) []]) [(q%"Language", .str q%"lit")]) content,
           .styled q%"code-flow" false
            (.seq (ps.flatMap fun p => if p.hit then [callPart i p] else (sub p.text).map fun q => if q.hit then argPart q else rawPart q))
            [(q%"Language", .str q%"lit")]])]) := by
  obtain ⟨ps, c1, c2, c3⟩ := call_fits.pieces (linkTransformer i).make html2
  have hsub : ∀ u, ∃ qs : List Piece, Cut ArgHit u qs ∧ Tidy qs ∧
      argTransformer.transformAll u = qs.map fun p => if p.hit then argTransformer.make p.text else .str p.text :=
    fun u => arg_fits.pieces argTransformer.make u
  obtain ⟨sub, hsub⟩ := Classical.skolem.1 hsub
  refine ⟨ps, sub, c1, c2, fun u => ⟨(hsub u).1, (hsub u).2.1⟩, ?_⟩
  have ht : ∀ s, h.text brokenOk k (.str s) = .ok s := by intro s; cases k <;> rfl
  have e : (linkTransformer i).transformAll html2 = ps.map fun p => if p.hit then callPart i p else .str p.text := by
    rw [show (linkTransformer i).transformAll html2 = _ from c3]
    refine List.map_congr_left fun p hp => ?_
    cases hh : p.hit with
    | true => simp only [if_true]; exact call_make i (Cut.hits c1 p hp hh)
    | false => rfl
  rw [define, C51_plain h brokenOk k highlight _ _ _ html1 true (ht _) rfl h1, renderArgs_texts spell loc]
  simp only [Res.bind]
  rw [syntaxTransform, ht]
  simp only [Res.bind, isFlow]
  rw [show '\\' :: fn ++ (args.flatMap fun a => '{' :: a ++ ['}']) = signature fn args from rfl, h2]
  simp only [onAllOf, Transformer.onAll, List.append_nil]
  rw [e, onAll_thumb i sub (fun u => ⟨(hsub u).1, (hsub u).2.2⟩) ps]
  rfl

theorem thumb_targets (i : Nat) (sub : Str → List Piece) : ∀ ps : List Piece,
    (partsL false (ps.flatMap fun p => if p.hit then [callPart i p] else (sub p.text).map fun q => if q.hit then argPart q else rawPart q)).filterMap
      (Content.anchor i) = []
  | [] => rfl
  | p :: ps => by
    have app : ∀ as bs : List Content, partsL false (as ++ bs) = partsL false as ++ partsL false bs := by
      intro as bs
      induction as with
      | nil => rfl
      | cons a as ih => rw [List.cons_append, partsL, partsL, ih, List.append_assoc]
    rw [List.flatMap_cons, app, List.filterMap_append, thumb_targets i sub ps, List.append_nil]
    cases p.hit with
    | true => rfl
    | false =>
      simp only [Bool.false_eq_true, if_false]
      generalize sub p.text = qs
      induction qs with
      | nil => rfl
      | cons q qs ih =>
        rw [List.map_cons, partsL, List.filterMap_append, ih, List.append_nil]
        cases q.hit <;> rfl

/-- **C103**: so a definition makes the function it defines findable under its name: beside the targets in what was written about it, it
sets exactly one, named like the function, in the section and at the place of the call. -/
theorem C103_found (h : Heap) (brokenOk : Bool) (k : Nat) (highlight : Str → Str → Bool → Option Str) (spell : Node → Str) (i : Nat)
    (fn : Str) (args : List Str) (loc : Location) (rest : List Node) (content c : Content)
    (he : define h brokenOk k highlight spell i (.seq (.invoke fn (args.map fun a => .seq [.str a]) loc :: rest)) content = .ok c)
    (html1 html2 : Str) (h1 : highlight q%"lit" ('\\' :: fn) true = some html1) (h2 : highlight q%"lit" (signature fn args) true = some html2) :
    c.anchors false i = content.anchors false i ++ [⟨fn,
      .styled q%"code-flow" false (.seq [.styled q%"raw-html" false (.str html1) []]) [(q%"Language", .str q%"lit")],
      some i, fn, content, (h.get i).invokeLoc⟩] := by
  obtain ⟨ps, sub, -, -, -, e⟩ := C103_define h brokenOk k highlight spell i fn args loc rest content html1 html2 h1 h2
  rw [e] at he
  cases he
  have hx : ∀ cs, (Content.styled q%"code-flow" false (.seq cs) [(q%"Language", .str q%"lit")]).anchors false i =
      (partsL false cs).filterMap (Content.anchor i) := by
    intro cs
    have n1 : ∀ x y z w, Content.anchor i (.styled x y z w) = none := fun _ _ _ _ => rfl
    have n2 : ∀ x, Content.anchor i (.seq x) = none := fun _ => rfl
    have n3 : ∀ x, Content.anchor i (.str x) = none := fun _ => rfl
    simp only [Content.anchors, Content.parts, partsP, List.filterMap_cons, List.filterMap_append, List.append_nil, List.filterMap_nil, n1, n2, n3]
  have := hx (ps.flatMap fun p => if p.hit then [callPart i p] else (sub p.text).map fun q => if q.hit then argPart q else rawPart q)
  rw [thumb_targets] at this
  simp only [Content.anchors] at this ⊢
  simp only [Content.parts, partsP, partsL, Content.anchor, List.filterMap_cons, List.filterMap_append, List.append_nil, List.filterMap_nil,
    List.nil_append, Bool.false_eq_true, if_false] at this ⊢
  simp [this]

/-- A definition of a function with one argument, by a highlighter that leaves everything as it is. -/
def defineIt : Res Content :=
  define [] false 9 (fun _ t _ => some t) (fun _ => []) 0 (.seq [.invoke q%"quote-it" [.seq [.str q%"text"]] Location.zero]) (.str q%"Quotes.")

example : defineIt.map (fun c => (c.anchors false 0).map (·.name)) = .ok [q%"quote-it"] := rfl

example : signature q%"quote-it" [q%"text"] = q%"\\quote-it{text}" := by decide

/-- **C103**: `\godoc` of a package, possibly behind stars, a dot and a name links to the name in the package's documentation. -/
theorem C103_godoc (stars pkg name : Str) (hs : ∀ c ∈ stars, c = '*') (hp : '.' ∉ pkg) (hh : pkg.head? ≠ some '*') :
    godoc (stars ++ pkg ++ '.' :: name) = .ok (.link
      (.styled q%"verbatim" false (.seq [.str (stars ++ pkg ++ ['.']), .styled q%"bold" false (.str name) []]) [])
      (q%"https://pkg.go.dev/github.com/vito/" ++ pkg ++ ['#'] ++ name)) := by
  have e1 : (stars ++ pkg ++ '.' :: name).takeWhile (fun x => decide (x ≠ '.')) = stars ++ pkg := by
    refine takeWhile_cut _ _ _ (fun c hc => decide_eq_true ?_) (fun c hc => by cases hc; rfl)
    rintro rfl
    rcases List.mem_append.1 hc with hc | hc
    · exact absurd (hs _ hc) (by decide)
    · exact hp hc
  have e2 : (stars ++ pkg).dropWhile (fun x => x == '*') = pkg := by
    clear e1
    induction stars with
    | nil =>
      cases pkg with
      | nil => rfl
      | cons c pkg =>
        have : (c == '*') = false := by simpa using hh
        rw [List.nil_append, List.dropWhile_cons, this]
        rfl
    | cons c stars ih =>
      have : c = '*' := hs c List.mem_cons_self
      subst this
      rw [List.cons_append, List.dropWhile_cons]
      exact ih fun d hd => hs d (List.mem_cons_of_mem _ hd)
  rw [godoc]
  simp only [e1, List.drop_left', e2]

/-- Without a dot the build crashes. -/
theorem C103_godoc_panics (ref : Str) (h : '.' ∉ ref) : godoc ref = .panic := by
  have e : ref.takeWhile (fun x => decide (x ≠ '.')) = ref := by
    have := takeWhile_cut (fun x => decide (x ≠ '.')) ref [] (fun c hc => decide_eq_true fun e => h (e ▸ hc)) (fun c hc => by cases hc)
    rwa [List.append_nil] at this
  rw [godoc]
  simp only [e, List.drop_length]

example : q%"*" ++ q%"booklit" ++ '.' :: q%"Section" = q%"*booklit.Section" ∧ '.' ∉ q%"booklit" ∧ (q%"booklit").head? ≠ some '*' := by decide

end Booklit.Props
