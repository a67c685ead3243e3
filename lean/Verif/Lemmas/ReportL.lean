import Verif.Lemmas.EscapeL
import Verif.Lemmas.HtmlL
import Verif.Lemmas.AnnotateL
import Verif.Spec.Report

/-!
Error pages, as the reader sees them.
-/

namespace Booklit

theorem domText_append (a b : List Dom) : domText (a ++ b) = domText a ++ domText b := by
  induction a with
  | nil => rfl
  | cons d a ih => rw [List.cons_append, domText, domText, ih, List.append_assoc]

theorem domTexts_append (P : Str → List (Str × Str) → Bool) (a b : List Dom) :
    domTexts P (a ++ b) = domTexts P a ++ domTexts P b := by
  induction a with
  | nil => rfl
  | cons d a ih => rw [List.cons_append, domTexts, domTexts, ih, List.append_assoc]

theorem domText_chars (s : Str) : domText (chars s) = s := by
  induction s with
  | nil => rfl
  | cons c s ih =>
    show Dom.text (.char c) ++ domText (chars s) = _
    rw [ih, Dom.text]
    rfl

theorem domTexts_chars (P : Str → List (Str × Str) → Bool) (s : Str) : domTexts P (chars s) = [] := by
  induction s with
  | nil => rfl
  | cons c s ih =>
    show Dom.texts P (.char c) ++ domTexts P (chars s) = _
    rw [ih, Dom.texts]
    rfl

/-- What a page says. -/
structure Said where
  text : Str
  msg : List Str := []
  path : List Str := []
  no : List Str := []
  line : List Str := []
  mark : List Str := []
  raw : List Str := []
  items : List Str := []
  notes : List Str := []

/-- What nodes say. -/
def said (ds : List Dom) : Said where
  text := domText ds
  msg := ofClass q%"error-message" ds
  path := ofClass q%"file-path" ds
  no := ofClass q%"lineno" ds
  line := ofClass q%"line" ds
  mark := ofClass q%"annotated" ds
  raw := ofClass q%"raw-error" ds
  items := ofName q%"li" ds
  notes := ofName q%"p" ds

/-- One thing after another. -/
def Said.add (a b : Said) : Said :=
  ⟨a.text ++ b.text, a.msg ++ b.msg, a.path ++ b.path, a.no ++ b.no, a.line ++ b.line, a.mark ++ b.mark, a.raw ++ b.raw,
    a.items ++ b.items, a.notes ++ b.notes⟩

theorem said_append (a b : List Dom) : said (a ++ b) = (said a).add (said b) := by
  simp only [said, Said.add, domText_append, ofClass, ofName, domTexts_append]

theorem said_chars (s : Str) : said (chars s) = { text := s } := by
  simp only [said, domText_chars, ofClass, ofName, domTexts_chars]

theorem reportOnly_append {a b : List Dom} (ha : ReportOnly a) (hb : ReportOnly b) : ReportOnly (a ++ b) := by
  intro n as ks h
  cases h with
  | here h =>
    rcases List.mem_append.1 h with h | h
    · exact ha _ _ _ (.here h)
    · exact hb _ _ _ (.here h)
  | deeper h1 h2 =>
    rcases List.mem_append.1 h1 with h | h
    · exact ha _ _ _ (.deeper h h2)
    · exact hb _ _ _ (.deeper h h2)

theorem reportOnly_chars (s : Str) : ReportOnly (chars s) := by
  intro n as ks h
  cases h with
  | here h => simp [chars] at h
  | deeper h _ => simp [chars] at h

/-- A text of HTML that reads as nodes that say this. -/
def Rd (t : Str) (S : Said) : Prop := ∃ ds, Reads t ds ∧ said ds = S ∧ ReportOnly ds

theorem Rd.app {s t : Str} {A B : Said} (h1 : Rd s A) (h2 : Rd t B) : Rd (s ++ t) (A.add B) := by
  obtain ⟨a, ra, rfl, oa⟩ := h1
  obtain ⟨b, rb, rfl, ob⟩ := h2
  exact ⟨_, ra.append rb, said_append a b, reportOnly_append oa ob⟩

theorem Rd.nil : Rd [] { text := [] } := ⟨[], .nil, rfl, reportOnly_chars []⟩

theorem Rd.lit (s : Str) (h : s.all (fun c => c != '<' && c != '&') = true) : Rd s { text := s } :=
  ⟨_, Reads.ws h, said_chars s, reportOnly_chars s⟩

theorem Reads.escByte (b : Byte) :
    Reads (Booklit.escByte b) (chars (if Char.ofNat b = '\x00' then (utf8 ['�']).map Char.ofNat else [Char.ofNat b])) := by
  unfold Booklit.escByte
  split
  · exact Reads.ws (by decide)
  · rename_i h
    have e := Reads.escChar (Char.ofNat b)
    rw [show arriving (Char.ofNat b) = Char.ofNat b by rw [arriving, if_neg h]] at e
    exact e

theorem chars_append (a b : Str) : chars (a ++ b) = chars a ++ chars b := by simp [chars]

theorem Rd.esc (bs : List Byte) : Rd (escBytes bs) { text := arrivingBytes bs } := by
  refine ⟨chars (arrivingBytes bs), ?_, said_chars _, reportOnly_chars _⟩
  induction bs with
  | nil => exact .nil
  | cons b bs ih =>
    rw [escBytes, List.flatMap_cons, arrivingBytes, List.flatMap_cons, chars_append]
    exact (Reads.escByte b).append ih

theorem Rd.raw (bs : List Byte) : Rd (escRaw bs) { text := arrivingBytes bs } := by
  refine ⟨chars (arrivingBytes bs), ?_, said_chars _, reportOnly_chars _⟩
  induction bs with
  | nil => exact .nil
  | cons b bs ih =>
    rw [escRaw, List.flatMap_cons, arrivingBytes, List.flatMap_cons, chars_append]
    refine Reads.append ?_ ih
    unfold escRawByte
    split
    · rename_i h
      subst h
      exact Reads.ws (by decide)
    · exact Reads.escByte b

/-- An element of the templates around something. -/
theorem Rd.el {a z s : Str} {name as} {S T : Said} (h : Rd s S)
    (ha : ∀ cur opens rest,
      Reader.run ⟨.text, cur, opens⟩ (a ++ rest) = Reader.run ⟨.text, [], ⟨name, as, cur⟩ :: opens⟩ rest)
    (hz : ∀ cur opens as0 before rest, Reader.run ⟨.text, cur, ⟨name, as0, before⟩ :: opens⟩ (z ++ rest)
      = Reader.run ⟨.text, before ++ [.elem name as0 cur], opens⟩ rest)
    (hn : name ∈ [q%"html", q%"head", q%"meta", q%"title", q%"style", q%"body", q%"h1", q%"div", q%"pre", q%"span", q%"p", q%"ul",
      q%"li", q%"code"]) (hs : ∀ x ∈ as, x ∈ reportAttrs)
    (hT : ∀ ds, said ds = S → said [.elem name as ds] = T) : Rd (a ++ s ++ z) T := by
  obtain ⟨ds, r, e, o⟩ := h
  refine ⟨_, r.around ha hz, hT ds e, ?_⟩
  intro n bs ks h
  cases h with
  | here h =>
    cases List.mem_singleton.1 h
    exact ⟨hn, hs⟩
  | deeper h1 h2 =>
    cases List.mem_singleton.1 h1
    exact o _ _ _ h2

theorem said_elem (n : Str) (as : List (Str × Str)) (ds : List Dom) :
    said [.elem n as ds] =
      let q := fun (c : Str) => if as.contains (q%"class", c) then [domText ds] else []
      let r := fun (c : Str) => if n == c then [domText ds] else []
      let S := said ds
      ⟨S.text, q q%"error-message" ++ S.msg, q q%"file-path" ++ S.path, q q%"lineno" ++ S.no, q q%"line" ++ S.line,
        q q%"annotated" ++ S.mark, q q%"raw-error" ++ S.raw, r q%"li" ++ S.items, r q%"p" ++ S.notes⟩ := by
  simp only [said, domText, Dom.text, ofClass, ofName, domTexts, Dom.texts, List.append_nil]

section
variable {s : Str} {S : Said}

/-- An element that is nothing special. -/
theorem Rd.div_error (h : Rd s S) : Rd (q%"<div class=\"error\">" ++ s ++ q%"</div>") S :=
  h.el (fun _ _ _ => rfl) (fun _ _ _ _ _ => rfl) (by decide) (by decide) (by rintro ds rfl; rw [said_elem]; rfl)

theorem Rd.div_location (h : Rd s S) : Rd (q%"<div class=\"code-location\">" ++ s ++ q%"</div>") S :=
  h.el (fun _ _ _ => rfl) (fun _ _ _ _ _ => rfl) (by decide) (by decide) (by rintro ds rfl; rw [said_elem]; rfl)

theorem Rd.div_snippet (h : Rd s S) : Rd (q%"<div class=\"file-snippet\">" ++ s ++ q%"</div>") S :=
  h.el (fun _ _ _ => rfl) (fun _ _ _ _ _ => rfl) (by decide) (by decide) (by rintro ds rfl; rw [said_elem]; rfl)

theorem Rd.div_annotated (h : Rd s S) : Rd (q%"<div class=\"annotated-line\">" ++ s ++ q%"</div>") S :=
  h.el (fun _ _ _ => rfl) (fun _ _ _ _ _ => rfl) (by decide) (by decide) (by rintro ds rfl; rw [said_elem]; rfl)

theorem Rd.div_panel (h : Rd s S) : Rd (q%"<div class=\"error-panel\">" ++ s ++ q%"</div>") S :=
  h.el (fun _ _ _ => rfl) (fun _ _ _ _ _ => rfl) (by decide) (by decide) (by rintro ds rfl; rw [said_elem]; rfl)

theorem Rd.h1 (h : Rd s S) : Rd (q%"<h1 class=\"title-header\">" ++ s ++ q%"</h1>") S :=
  h.el (fun _ _ _ => rfl) (fun _ _ _ _ _ => rfl) (by decide) (by decide) (by rintro ds rfl; rw [said_elem]; rfl)

theorem Rd.span_eof (h : Rd s S) : Rd (q%"<span class=\"eof\">" ++ s ++ q%"</span>") S :=
  h.el (fun _ _ _ => rfl) (fun _ _ _ _ _ => rfl) (by decide) (by decide) (by rintro ds rfl; rw [said_elem]; rfl)

theorem Rd.code (h : Rd s S) : Rd (q%"<code>" ++ s ++ q%"</code>") S :=
  h.el (fun _ _ _ => rfl) (fun _ _ _ _ _ => rfl) (by decide) (by decide) (by rintro ds rfl; rw [said_elem]; rfl)

theorem Rd.ul (h : Rd s S) : Rd (q%"<ul>" ++ s ++ q%"</ul>") S :=
  h.el (fun _ _ _ => rfl) (fun _ _ _ _ _ => rfl) (by decide) (by decide) (by rintro ds rfl; rw [said_elem]; rfl)

theorem Rd.html (h : Rd s S) : Rd (q%"<html>" ++ s ++ q%"</html>") S :=
  h.el (fun _ _ _ => rfl) (fun _ _ _ _ _ => rfl) (by decide) (by decide) (by rintro ds rfl; rw [said_elem]; rfl)

theorem Rd.head (h : Rd s S) : Rd (q%"<head>" ++ s ++ q%"</head>") S :=
  h.el (fun _ _ _ => rfl) (fun _ _ _ _ _ => rfl) (by decide) (by decide) (by rintro ds rfl; rw [said_elem]; rfl)

theorem Rd.body (h : Rd s S) : Rd (q%"<body>" ++ s ++ q%"</body>") S :=
  h.el (fun _ _ _ => rfl) (fun _ _ _ _ _ => rfl) (by decide) (by decide) (by rintro ds rfl; rw [said_elem]; rfl)

theorem Rd.title (h : Rd s S) : Rd (q%"<title>" ++ s ++ q%"</title>") S :=
  h.el (fun _ _ _ => rfl) (fun _ _ _ _ _ => rfl) (by decide) (by decide) (by rintro ds rfl; rw [said_elem]; rfl)

theorem Rd.style (h : Rd s S) : Rd (q%"<style type=\"text/css\">" ++ s ++ q%"</style>") S :=
  h.el (fun _ _ _ => rfl) (fun _ _ _ _ _ => rfl) (by decide) (by decide) (by rintro ds rfl; rw [said_elem]; rfl)

theorem Rd.p (h : Rd s S) : Rd (q%"<p>" ++ s ++ q%"</p>") { S with notes := S.text :: S.notes } :=
  h.el (fun _ _ _ => rfl) (fun _ _ _ _ _ => rfl) (by decide) (by decide) (by rintro ds rfl; rw [said_elem]; rfl)

theorem Rd.li (h : Rd s S) : Rd (q%"<li>" ++ s ++ q%"</li>") { S with items := S.text :: S.items } :=
  h.el (fun _ _ _ => rfl) (fun _ _ _ _ _ => rfl) (by decide) (by decide) (by rintro ds rfl; rw [said_elem]; rfl)

theorem Rd.message (h : Rd s S) : Rd (q%"<div class=\"error-message\">" ++ s ++ q%"</div>") { S with msg := S.text :: S.msg } :=
  h.el (fun _ _ _ => rfl) (fun _ _ _ _ _ => rfl) (by decide) (by decide) (by rintro ds rfl; rw [said_elem]; rfl)

theorem Rd.path (h : Rd s S) : Rd (q%"<pre class=\"file-path\">" ++ s ++ q%"</pre>") { S with path := S.text :: S.path } :=
  h.el (fun _ _ _ => rfl) (fun _ _ _ _ _ => rfl) (by decide) (by decide) (by rintro ds rfl; rw [said_elem]; rfl)

theorem Rd.lineno (h : Rd s S) : Rd (q%"<pre class=\"lineno\">" ++ s ++ q%"</pre>") { S with no := S.text :: S.no } :=
  h.el (fun _ _ _ => rfl) (fun _ _ _ _ _ => rfl) (by decide) (by decide) (by rintro ds rfl; rw [said_elem]; rfl)

theorem Rd.line (h : Rd s S) : Rd (q%"<pre class=\"line\">" ++ s ++ q%"</pre>") { S with line := S.text :: S.line } :=
  h.el (fun _ _ _ => rfl) (fun _ _ _ _ _ => rfl) (by decide) (by decide) (by rintro ds rfl; rw [said_elem]; rfl)

theorem Rd.annotated (h : Rd s S) : Rd (q%"<span class=\"annotated\">" ++ s ++ q%"</span>") { S with mark := S.text :: S.mark } :=
  h.el (fun _ _ _ => rfl) (fun _ _ _ _ _ => rfl) (by decide) (by decide) (by rintro ds rfl; rw [said_elem]; rfl)

theorem Rd.rawError (h : Rd s S) : Rd (q%"<pre class=\"raw-error\">" ++ s ++ q%"</pre>") { S with raw := S.text :: S.raw } :=
  h.el (fun _ _ _ => rfl) (fun _ _ _ _ _ => rfl) (by decide) (by decide) (by rintro ds rfl; rw [said_elem]; rfl)

end

/-- The same, whatever the text. -/
def Rs (t : Str) (S : Said) : Prop := ∃ x, Rd t { S with text := x }

/-- One thing after another, without the texts. -/
def Said.then (a b : Said) : Said := { a.add b with text := [] }

theorem Rd.rs {t s : Str} {S T : Said} (h : Rd s S) (e : t = s) (f : T = { S with text := T.text }) : Rs t T := by
  refine ⟨S.text, ?_⟩
  rw [e, f]
  exact h

theorem Rd.rs' {t s : Str} {S T : Said} (h : Rd s S) (e : t = s) (h1 : T.msg = S.msg)
    (h2 : T.path = S.path ∧ T.no = S.no ∧ T.line = S.line ∧ T.mark = S.mark) (h3 : T.raw = S.raw) (h4 : T.items = S.items)
    (h5 : T.notes = S.notes) : Rs t T := by
  refine h.rs e ?_
  obtain ⟨a, b, c, d⟩ := h2
  cases S
  cases T
  dsimp only at *
  subst h1 a b c d h3 h4 h5
  rfl

theorem arrivingBytes_append (a b : List Byte) : arrivingBytes (a ++ b) = arrivingBytes a ++ arrivingBytes b := by
  simp [arrivingBytes]

theorem arrivingBytes_ascii (s : Str) (h : s.all (fun c => decide (c.toNat < 128) && c != '\x00') = true) :
    arrivingBytes (utf8 s) = s := by
  induction s with
  | nil => rfl
  | cons c s ih =>
    rw [List.all_cons, Bool.and_eq_true] at h
    obtain ⟨h1, h2⟩ := h
    simp only [Bool.and_eq_true, decide_eq_true_eq, bne_iff_ne, ne_eq] at h1
    rw [utf8_cons, arrivingBytes_append, ih h2, utf8Char_ascii h1.1]
    simp [arrivingBytes, h1.2]

theorem Rs.snippet (path : Str) (line : Nat) (eof : Bool) (p m q : List Byte) :
    Rs (annotatedLine path line eof p m q)
      { text := [], path := [arrivingBytes (utf8 (path ++ q%":"))], no := [arrivingBytes (Booklit.lineno line)],
        line := [(Snippet.shown eof p m q).line], mark := (Snippet.shown eof p m q).marks } := by
  have hp : arrivingBytes (utf8 (path ++ q%":")) = arrivingBytes (utf8 path) ++ q%":" := by
    rw [utf8_append, arrivingBytes_append]
    rfl
  rw [hp]
  have h1 := (Rd.lit q%"\n  " (by decide)).app ((Rd.esc (utf8 path)).app (Rd.lit q%":" (by decide))).path
  have h2 := (Rd.lit q%"\n    " (by decide)).app (Rd.esc (Booklit.lineno line)).lineno
  cases eof with
  | true =>
    have h3 := ((Rd.lit q%"\n    \n    " (by decide)).app (Rd.lit q%"(end of file)" (by decide)).span_eof.line).app
      (Rd.lit q%"\n    \n  " (by decide))
    have h := ((h1.app (Rd.lit q%"\n\n  " (by decide))).app ((h2.app h3).div_annotated.app (Rd.lit q%"\n" (by decide)))).div_snippet
    refine h.rs ?_ ?_
    · simp only [annotatedLine, List.append_assoc, if_true]; rfl
    · simp [Said.add, Snippet.line, Snippet.marks]
  | false =>
    have h3 := ((Rd.lit q%"\n    \n    " (by decide)).app ((Rd.esc p).app ((Rd.esc m).annotated.app (Rd.esc q))).line).app
      (Rd.lit q%"\n    \n  " (by decide))
    have h := ((h1.app (Rd.lit q%"\n\n  " (by decide))).app ((h2.app h3).div_annotated.app (Rd.lit q%"\n" (by decide)))).div_snippet
    refine h.rs ?_ ?_
    · simp only [annotatedLine, List.append_assoc, Bool.false_eq_true, if_false]; rfl
    · simp [Said.add, Snippet.line, Snippet.marks, arrivingBytes_append]

/-- What is said about places. -/
def placesSaid (fs : Disk8) (sps : List Spot) : Said where
  text := []
  path := (sps.filter fun sp => sp.loc.line != 0).map fun sp => arrivingBytes (utf8 (sp.path ++ q%":"))
  no := (sps.filter fun sp => sp.loc.line != 0).map fun sp => arrivingBytes (lineno sp.loc.line)
  line := (sps.filter fun sp => sp.loc.line != 0).map fun sp => (annotatedHTML (fs sp.path) sp.loc sp.len).line
  mark := (sps.filter fun sp => sp.loc.line != 0).flatMap fun sp => (annotatedHTML (fs sp.path) sp.loc sp.len).marks

theorem Rs.spot {fs : Disk8} {sp : Spot} {t : Str} (h : sp.html fs = .ok t) : Rs t (placesSaid fs [sp]) := by
  unfold Spot.html at h
  cases e : annotatedHTML (fs sp.path) sp.loc sp.len with
  | unavailable =>
    rw [e] at h
    cases h
    have h0 : sp.loc.line = 0 := by
      rw [annotatedHTML] at e
      by_cases hl : sp.loc.line = 0
      · exact hl
      · rw [if_neg hl] at e
        exfalso
        revert e
        cases (fs sp.path).bind fun bs => lineInQuestion bs sp.loc.line with
        | none => simp
        | some line =>
          dsimp only
          split
          · split <;> simp
          · split <;> simp
    refine Rd.nil.rs rfl ?_
    simp [placesSaid, h0]
  | error => rw [e] at h; cases h
  | panic => rw [e] at h; cases h
  | shown eof p m q =>
    rw [e] at h
    cases h
    have h0 : sp.loc.line ≠ 0 := by
      intro h0
      rw [annotatedHTML, if_pos h0] at e
      cases e
    have hx := Rs.snippet sp.path sp.loc.line eof p m q
    have : (List.filter (fun sp : Spot => sp.loc.line != 0) [sp]) = [sp] := by simp [h0]
    simp only [placesSaid, this, List.map_cons, List.map_nil, List.flatMap_cons, List.flatMap_nil, e, List.append_nil]
    exact hx

theorem placesSaid_append (fs : Disk8) (a b : List Spot) : placesSaid fs (a ++ b) = (placesSaid fs a).add (placesSaid fs b) := by
  simp [placesSaid, Said.add]

/-- A `code-location`. -/
theorem Rd.location {fs : Disk8} {sp : Spot} {t : Str} (h : sp.html fs = .ok t) :
    Rs (codeLocation t) (placesSaid fs [sp]) := by
  obtain ⟨x, h⟩ := Rs.spot h
  have := (((Rd.lit q%"\n    " (by decide)).app (h.app (Rd.lit q%"\n  " (by decide)))).div_location).app (Rd.lit q%"\n" (by decide))
  refine Rd.rs this ?_ ?_
  · simp only [codeLocation, List.append_assoc]; rfl
  · simp [Said.add, placesSaid]

theorem Rd.defined {fs : Disk8} : ∀ {ds : List (Str × Location)} {t : Str}, definedHtml fs ds = .ok t →
    Rs t (placesSaid fs (ds.map fun d => Spot.mk d.1 d.2 0))
  | [], t, h => by cases h; exact ⟨[], Rd.nil⟩
  | d :: ds, t, h => by
    rw [definedHtml] at h
    cases ha : (Spot.mk d.1 d.2 0).html fs with
    | error sp => rw [ha] at h; cases h
    | ok a =>
      rw [ha] at h
      dsimp only at h
      cases hb : definedHtml fs ds with
      | error sp => rw [hb] at h; cases h
      | ok b =>
        rw [hb] at h
        cases h
        obtain ⟨x, hx⟩ := Rd.location ha
        obtain ⟨y, hy⟩ := Rd.defined hb
        have := (((Rd.lit q%"\n  " (by decide)).app hx).app (Rd.lit q%"  " (by decide))).app hy
        refine Rd.rs this rfl ?_
        rw [List.map_cons, ← List.singleton_append, placesSaid_append]
        simp [Said.add, placesSaid]

theorem Rd.item (t : Str) : Rd (q%"\n    <li><p><code>" ++ escBytes (utf8 t) ++ q%"</code></p></li>\n  ")
    { text := q%"\n    " ++ arrivingBytes (utf8 t) ++ q%"\n  ", items := [arrivingBytes (utf8 t)], notes := [arrivingBytes (utf8 t)] } := by
  have := ((Rd.lit q%"\n    " (by decide)).app (Rd.esc (utf8 t)).code.p.li).app (Rd.lit q%"\n  " (by decide))
  have e : (q%"\n    <li><p><code>" ++ escBytes (utf8 t) ++ q%"</code></p></li>\n  ") =
    q%"\n    " ++ (q%"<li>" ++ (q%"<p>" ++ (q%"<code>" ++ escBytes (utf8 t) ++ q%"</code>") ++ q%"</p>") ++ q%"</li>") ++ q%"\n  " := by
    simp only [List.append_assoc]; rfl
  rw [e]
  exact this

theorem Rd.items : ∀ (ts : List Str),
    ∃ x, Rd (ts.flatMap fun t => q%"\n    <li><p><code>" ++ escBytes (utf8 t) ++ q%"</code></p></li>\n  ")
      { text := x, items := ts.map fun t => arrivingBytes (utf8 t), notes := ts.map fun t => arrivingBytes (utf8 t) }
  | [] => ⟨[], Rd.nil⟩
  | t :: ts => by
    obtain ⟨x, h⟩ := Rd.items ts
    exact ⟨_, (Rd.item t).app h⟩

theorem Rd.similar (ts : List Str) :
    Rs (similarHtml ts) { text := [], items := (ts.map fun t => arrivingBytes (utf8 t)), notes := (if ts = [] then [q%"I couldn't find any similar tags. :("]
        else [q%"These tags seem similar:"] ++ (ts.map fun t => arrivingBytes (utf8 t)) ++ [q%"Did you mean one of these?"]) } := by
  unfold similarHtml
  by_cases h : ts = []
  · subst h
    have := ((Rd.lit q%"\n  " (by decide)).app (Rd.lit q%"I couldn't find any similar tags. :(" (by decide)).p).app
      (Rd.lit q%"\n  " (by decide))
    refine Rd.rs this rfl ?_
    simp [Said.add]
  · simp only [if_neg h]
    obtain ⟨x, hx⟩ := Rd.items ts
    have := (((Rd.lit q%"\n  " (by decide)).app (Rd.lit q%"These tags seem similar:" (by decide)).p).app
      ((Rd.lit q%"\n\n  " (by decide)).app (((Rd.lit q%"\n  " (by decide)).app hx).app (Rd.lit q%"\n  " (by decide))).ul)).app
      (((Rd.lit q%"\n\n  " (by decide)).app (Rd.lit q%"Did you mean one of these?" (by decide)).p).app (Rd.lit q%"\n  " (by decide)))
    refine Rd.rs this ?_ ?_
    · simp only [List.append_assoc]; rfl
    · simp [Said.add]

/-- What a page has to say about an error. -/
def Err.said (M : Wording) (fs : Disk8) (e : Err) : Said :=
  { placesSaid fs e.places with
    msg := e.headlines.map fun m => arrivingBytes (utf8 m)
    raw := (e.raws M).map arrivingBytes
    items := (e.suggestions M).map fun t => arrivingBytes (utf8 t)
    notes := (e.notes M).map arrivingBytes }

theorem arriving_headline (a b : Str) : arrivingBytes (utf8 (a ++ b)) = arrivingBytes (utf8 a) ++ arrivingBytes (utf8 b) := by
  rw [utf8_append, arrivingBytes_append]

set_option maxRecDepth 4000 in
theorem Err.reads (M : Wording) (fs : Disk8) : ∀ (e : Err) (t : Str), e.html M fs = .ok t →
    Rs t (e.said M fs)
  | .plain w, t, h => by
    cases h
    exact Rd.rs (Rd.raw (M.plain w)).rawError rfl rfl
  | .parse p l, t, h => by
    rw [Err.html] at h
    cases ha : (Err.parse p l).spot.html fs with
    | error sp => rw [ha] at h; cases h
    | ok a =>
      rw [ha] at h
      cases h
      obtain ⟨x, hx⟩ := Rd.location ha
      have := ((((Rd.lit q%"\n  " (by decide)).app (Rd.lit q%"parse error" (by decide)).message).app
        ((Rd.lit q%"\n\n  " (by decide)).app (Rd.esc (M.parse p l)).p)).app ((Rd.lit q%"\n\n  " (by decide)).app hx)).div_error
      refine Rd.rs this ?_ ?_
      · simp only [List.append_assoc]; rfl
      · rfl
  | .undefined fn p l, t, h => by
    rw [Err.html] at h
    cases ha : (Err.undefined fn p l).spot.html fs with
    | error sp => rw [ha] at h; cases h
    | ok a =>
      rw [ha] at h
      cases h
      obtain ⟨x, hx⟩ := Rd.location ha
      have := (((Rd.lit q%"\n  " (by decide)).app ((Rd.lit q%"undefined function: " (by decide)).app
        ((Rd.lit q%"\\" (by decide)).app (Rd.esc (utf8 fn))).code).message).app ((Rd.lit q%"\n\n  " (by decide)).app hx)).div_error
      refine Rd.rs this ?_ ?_
      · simp only [List.append_assoc]; rfl
      · have e : (Err.undefined fn p l).places = [(Err.undefined fn p l).spot] := by
          simp [Err.places, Err.spot, utf8_cons, utf8Char]
        unfold Err.said
        rw [e]
        simp only [Err.headlines, List.map_cons, List.map_nil, arriving_headline]
        rfl
  | .failed fn e p l, t, h => by
    rw [Err.html] at h
    cases ha : (Err.failed fn e p l).spot.html fs with
    | error sp => rw [ha] at h; cases h
    | ok a =>
      rw [ha] at h
      dsimp only at h
      cases hb : e.html M fs with
      | error sp => rw [hb] at h; cases h
      | ok b =>
        rw [hb] at h
        cases h
        obtain ⟨x, hx⟩ := Rd.location ha
        obtain ⟨y, hy⟩ := Err.reads M fs e b hb
        have := ((((Rd.lit q%"\n  " (by decide)).app (((Rd.lit q%"function " (by decide)).app
          ((Rd.lit q%"\\" (by decide)).app (Rd.esc (utf8 fn))).code).app (Rd.lit q%" returned an error" (by decide))).message).app
          ((Rd.lit q%"\n\n  " (by decide)).app hx)).app (((Rd.lit q%"\n  " (by decide)).app hy).app
          (Rd.lit q%"\n" (by decide)))).div_error
        have e' : (Err.failed fn e p l).places = [(Err.failed fn e p l).spot] ++ e.places := by
          simp [Err.places, Err.spot, utf8_cons, utf8Char]
        refine Rd.rs' this (by simp only [List.append_assoc]; rfl) ?_ ?_ ?_ ?_ ?_
        · change ((Err.failed fn e p l).headlines.map fun m => arrivingBytes (utf8 m)) = _
          have hh : arrivingBytes (utf8 (q%"function \\" ++ fn ++ q%" returned an error"))
              = q%"function " ++ (q%"\\" ++ arrivingBytes (utf8 fn)) ++ q%" returned an error" := by
            rw [arriving_headline, arriving_headline]
            rfl
          rw [Err.headlines, List.map_cons, hh]
          simp only [Said.add, placesSaid, Err.said, List.nil_append, List.append_nil]
          rfl
        · simp only [Err.said, e', placesSaid_append]
          simp [Said.add, placesSaid]
        · simp [Said.add, placesSaid, Err.said, Err.raws, Err.cause]
        · simp [Said.add, placesSaid, Err.said, Err.suggestions, Err.cause]
        · simp [Said.add, placesSaid, Err.said, Err.notes, Err.cause]
  | .titleTwice p first l, t, h => by
    rw [Err.html] at h
    cases ha : (Err.titleTwice p first l).spot.html fs with
    | error sp => rw [ha] at h; cases h
    | ok a =>
      rw [ha] at h
      dsimp only at h
      cases hb : (Spot.mk p first 6).html fs with
      | error sp => rw [hb] at h; cases h
      | ok b =>
        rw [hb] at h
        cases h
        obtain ⟨x, hx⟩ := Rd.location ha
        obtain ⟨y, hy⟩ := Rd.location hb
        have := (((Rd.lit q%"\n  " (by decide)).app (Rd.lit q%"cannot set title twice" (by decide)).message).app
          ((((Rd.lit q%"\n\n  " (by decide)).app hx).app ((Rd.lit q%"\n  " (by decide)).app
            (Rd.lit q%"The section's title was first set here:" (by decide)).p)).app (((Rd.lit q%"\n\n  " (by decide)).app hy).app
            (((Rd.lit q%"\n  " (by decide)).app
            (((Rd.lit q%"Maybe the second " (by decide)).app (Rd.lit q%"\\title" (by decide)).code).app
              (((Rd.lit q%" should be in a " (by decide)).app (Rd.lit q%"\\section{...}" (by decide)).code).app (Rd.lit q%"?" (by decide)))).p).app
            (Rd.lit q%"\n" (by decide)))))).div_error
        have e' : (Err.titleTwice p first l).places = [(Err.titleTwice p first l).spot] ++ [Spot.mk p first 6] := rfl
        refine Rd.rs' this (by simp only [List.append_assoc]; rfl) rfl ?_ rfl rfl rfl
        simp only [Err.said, e', placesSaid_append]
        simp [Said.add, placesSaid]
  | .unknownTag g known p l, t, h => by
    rw [Err.html] at h
    cases ha : (Err.unknownTag g known p l).spot.html fs with
    | error sp => rw [ha] at h; cases h
    | ok a =>
      rw [ha] at h
      cases h
      obtain ⟨x, hx⟩ := Rd.location ha
      obtain ⟨y, hy⟩ := Rd.similar (M.like g known)
      have := ((((Rd.lit q%"\n  " (by decide)).app ((Rd.lit q%"reference to unknown tag: " (by decide)).app
        (Rd.esc (utf8 g)).code).message).app ((Rd.lit q%"\n\n  " (by decide)).app hx)).app
        (((Rd.lit q%"\n  " (by decide)).app hy).app (Rd.lit q%"\n" (by decide)))).div_error
      have e' : (Err.unknownTag g known p l).places = [(Err.unknownTag g known p l).spot] := rfl
      refine Rd.rs' this (by simp only [List.append_assoc]; rfl) ?_ ?_ rfl ?_ ?_
      · change ((Err.unknownTag g known p l).headlines.map fun m => arrivingBytes (utf8 m)) = _
        simp only [Err.headlines, List.map_cons, arriving_headline]
        rfl
      · simp only [Err.said, e']
        simp [Said.add, placesSaid]
      · simp [Said.add, placesSaid, Err.said, Err.suggestions, Err.cause, Wording.like]
      · have hs : (Err.unknownTag g known p l).notes M = if M.like g known = [] then [utf8 q%"I couldn't find any similar tags. :("]
          else [utf8 q%"These tags seem similar:"] ++ (M.like g known).map utf8 ++ [utf8 q%"Did you mean one of these?"] := rfl
        show ((Err.unknownTag g known p l).notes M).map arrivingBytes = _
        rw [hs]
        by_cases hn : M.like g known = []
        · simp only [if_pos hn]
          rfl
        · simp only [if_neg hn, Said.add, placesSaid, List.map_append, List.map_map]
          simp
          exact ⟨rfl, rfl⟩
  | .ambiguous g defined p l, t, h => by
    rw [Err.html] at h
    cases ha : (Err.ambiguous g defined p l).spot.html fs with
    | error sp => rw [ha] at h; cases h
    | ok a =>
      rw [ha] at h
      dsimp only at h
      cases hb : definedHtml fs defined with
      | error sp => rw [hb] at h; cases h
      | ok b =>
        rw [hb] at h
        cases h
        obtain ⟨x, hx⟩ := Rd.location ha
        obtain ⟨y, hy⟩ := Rd.defined hb
        have := (((Rd.lit q%"\n  " (by decide)).app ((Rd.lit q%"ambiguous reference tag: " (by decide)).app
          (Rd.esc (utf8 g)).code).message).app (((Rd.lit q%"\n\n  " (by decide)).app hx).app
          (((Rd.lit q%"\n  " (by decide)).app (Rd.lit q%"The same tag was defined in the following locations:" (by decide)).p).app
          (((Rd.lit q%"\n\n  " (by decide)).app hy).app (((Rd.lit q%"\n\n  " (by decide)).app
            (Rd.lit q%"One of these tags must be changed." (by decide)).p).app (Rd.lit q%"\n" (by decide))))))).div_error
        have e' : (Err.ambiguous g defined p l).places
            = [(Err.ambiguous g defined p l).spot] ++ (defined.map fun d => Spot.mk d.1 d.2 0) := rfl
        refine Rd.rs' this (by simp only [List.append_assoc]; rfl) ?_ ?_ rfl rfl rfl
        · change ((Err.ambiguous g defined p l).headlines.map fun m => arrivingBytes (utf8 m)) = _
          simp only [Err.headlines, List.map_cons, arriving_headline]
          rfl
        · simp only [Err.said, e', placesSaid_append]
          simp [Said.add, placesSaid]

theorem Rd.doctype : Rd q%"<!DOCTYPE html>" { text := [] } :=
  ⟨[], by intro cur opens rest; rw [List.append_nil]; rfl, rfl, reportOnly_chars []⟩

theorem Rd.void {t : Str} {n : Str} {as : List (Str × Str)} (h : Reads t [.elem n as []])
    (hn : n = q%"meta") (hs : ∀ x ∈ as, x ∈ reportAttrs) (hT : said [.elem n as []] = { text := [] }) : Rd t { text := [] } := by
  refine ⟨_, h, hT, ?_⟩
  subst hn
  intro m bs ks h
  cases h with
  | here h =>
    cases List.mem_singleton.1 h
    exact ⟨by decide, hs⟩
  | deeper h1 h2 =>
    cases List.mem_singleton.1 h1
    cases h2 with
    | here h => cases h
    | deeper h _ => cases h

theorem Rd.meta1 : Rd q%"<meta http-equiv=\"content-type\" content=\"text/html; charset=utf-8\" />" { text := [] } :=
  Rd.void (n := q%"meta") (as := [(q%"http-equiv", q%"content-type"), (q%"content", q%"text/html; charset=utf-8")])
    (by intro cur opens rest; rfl) rfl (by decide) rfl

theorem Rd.meta2 : Rd q%"<meta name=\"viewport\" content=\"width=device-width\" />" { text := [] } :=
  Rd.void (n := q%"meta") (as := [(q%"name", q%"viewport"), (q%"content", q%"width=device-width")])
    (by intro cur opens rest; rfl) rfl (by decide) rfl

set_option maxRecDepth 100000 in
/-- The whole page. -/
theorem Rs.page {css t : Str} {S : Said} (hcss : css.all (fun c => c != '<' && c != '&') = true) (h : Rs t S) :
    Rs (errorPageStart css ++ t ++ errorPageEnd) S := by
  obtain ⟨x, h⟩ := h
  have hh := ((Rd.lit q%"\n    " (by decide)).app (Rd.meta1.app ((Rd.lit q%"\n    " (by decide)).app (Rd.meta2.app
    ((Rd.lit q%"\n    " (by decide)).app ((Rd.lit q%"Booklit Error" (by decide)).title.app ((Rd.lit q%"\n    " (by decide)).app
      ((Rd.lit css hcss).style.app (Rd.lit q%"\n  " (by decide)))))))))).head
  have hb := ((Rd.lit q%"\n    " (by decide)).app ((((Rd.lit q%"\n      " (by decide)).app
    (Rd.lit q%"your book is lit! ...on fire." (by decide)).h1).app (((Rd.lit q%"\n\n      " (by decide)).app h).app
      (Rd.lit q%"\n    " (by decide)))).div_panel.app (Rd.lit q%"\n\t" (by decide)))).body
  have := Rd.doctype.app ((Rd.lit q%"\n" (by decide)).app ((Rd.lit q%"\n  " (by decide)).app (hh.app
    ((Rd.lit q%"\n  " (by decide)).app (hb.app (Rd.lit q%"\n" (by decide)))))).html)
  refine Rd.rs' this (by simp only [errorPageStart, errorPageEnd, List.append_assoc]; rfl) ?_ ?_ ?_ ?_ ?_
  all_goals simp [Said.add]

/-! When the page is complete. -/

/-- The place can be shown on a page. -/
def Spot.Fine (fs : Disk8) (sp : Spot) : Prop := ∃ t, sp.html fs = .ok t

theorem defined_fine {fs : Disk8} : ∀ {ds : List (Str × Location)}, (∀ d ∈ ds, (Spot.mk d.1 d.2 0).Fine fs) →
    ∃ t, definedHtml fs ds = .ok t
  | [], _ => ⟨_, rfl⟩
  | d :: ds, h => by
    obtain ⟨a, ha⟩ := h d (by simp)
    obtain ⟨t, ht⟩ := defined_fine fun x hx => h x (List.mem_cons_of_mem _ hx)
    rw [definedHtml, ha, ht]
    exact ⟨_, rfl⟩

theorem Err.fine {M : Wording} {fs : Disk8} : ∀ {e : Err}, (∀ sp ∈ e.places, sp.Fine fs) → ∃ t, e.html M fs = .ok t
  | .plain w, _ => ⟨_, rfl⟩
  | .parse p l, h => by
    obtain ⟨a, ha⟩ := h (Err.parse p l).spot (by simp [Err.places, Err.spot])
    rw [Err.html, ha]
    exact ⟨_, rfl⟩
  | .undefined fn p l, h => by
    obtain ⟨a, ha⟩ := h (Err.undefined fn p l).spot (by simp [Err.places, Err.spot, utf8_cons, utf8Char])
    rw [Err.html, ha]
    exact ⟨_, rfl⟩
  | .failed fn e p l, h => by
    obtain ⟨a, ha⟩ := h (Err.failed fn e p l).spot (by simp [Err.places, Err.spot, utf8_cons, utf8Char])
    obtain ⟨b, hb⟩ := Err.fine (M := M) fun sp hs => h sp (by rw [Err.places]; exact List.mem_cons_of_mem _ hs)
    rw [Err.html, ha, hb]
    exact ⟨_, rfl⟩
  | .titleTwice p first l, h => by
    obtain ⟨a, ha⟩ := h (Err.titleTwice p first l).spot (by rw [Err.places]; exact List.mem_cons_self ..)
    obtain ⟨b, hb⟩ := h ⟨p, first, 6⟩ (by rw [Err.places]; exact List.mem_cons_of_mem _ (List.mem_cons_self ..))
    rw [Err.html, ha, hb]
    exact ⟨_, rfl⟩
  | .unknownTag t known p l, h => by
    obtain ⟨a, ha⟩ := h (Err.unknownTag t known p l).spot (by rw [Err.places]; exact List.mem_cons_self ..)
    rw [Err.html, ha]
    exact ⟨_, rfl⟩
  | .ambiguous t ds p l, h => by
    obtain ⟨a, ha⟩ := h (Err.ambiguous t ds p l).spot (by rw [Err.places]; exact List.mem_cons_self ..)
    obtain ⟨b, hb⟩ := defined_fine fun d hd => h ⟨d.1, d.2, 0⟩
      (by rw [Err.places]; exact List.mem_cons_of_mem _ (List.mem_map.2 ⟨d, hd, rfl⟩))
    rw [Err.html, ha, hb]
    exact ⟨_, rfl⟩

/-- And when not: the message tells of one of the places. -/
theorem defined_fails {fs : Disk8} {sp : Spot} : ∀ {ds : List (Str × Location)}, definedHtml fs ds = .error sp →
    (∃ d ∈ ds, sp = ⟨d.1, d.2, 0⟩) ∧ ¬ sp.Fine fs
  | [], h => by cases h
  | d :: ds, h => by
    rw [definedHtml] at h
    have key : ∀ {sp sp' : Spot}, sp.html fs = .error sp' → sp' = sp := by
      intro sp sp' h
      unfold Spot.html at h
      split at h <;> cases h <;> rfl
    cases ha : (Spot.mk d.1 d.2 0).html fs with
    | error x =>
      rw [ha] at h
      cases h
      cases key ha
      exact ⟨⟨d, by simp, rfl⟩, fun ⟨t, ht⟩ => by rw [ha] at ht; cases ht⟩
    | ok a =>
      rw [ha] at h
      dsimp only at h
      cases hb : definedHtml fs ds with
      | ok b => rw [hb] at h; cases h
      | error x =>
        rw [hb] at h
        cases h
        obtain ⟨⟨d', h1, h2⟩, h3⟩ := defined_fails hb
        exact ⟨⟨d', by simp [h1], h2⟩, h3⟩

/-- A place is shown if its file has that many lines and the column is not zero. -/
theorem Spot.fine_of {fs : Disk8} {sp : Spot} (h : sp.loc.line = 0 ∨
    (sp.loc.col ≠ 0 ∧ ∃ bs t, fs sp.path = some bs ∧ lineInQuestion bs sp.loc.line = some t)) : sp.Fine fs := by
  unfold Spot.Fine Spot.html annotatedHTML
  by_cases h0 : sp.loc.line = 0
  · simp [h0]
  · obtain ⟨hc, bs, t, h1, h2⟩ := h.resolve_left h0
    simp only [h0, if_false, h1, Option.bind_some, h2, hc]
    by_cases hl : t.length ≥ sp.loc.col - 1 + sp.len
    · simp [hl]
    · simp [hl]

theorem cutLine_cut : ∀ {bs l : List Byte}, cutLine bs = some l → 10 ∉ l ∧ ∃ r, bs = l ++ 10 :: r
  | [], l, h => by cases h
  | b :: bs, l, h => by
    rw [cutLine] at h
    split at h
    · rename_i hb
      cases h
      exact ⟨by simp, bs, by rw [hb]; rfl⟩
    · rename_i hb
      cases hc : cutLine bs with
      | none => rw [hc] at h; cases h
      | some l' =>
        rw [hc] at h
        cases h
        obtain ⟨h1, r, h2⟩ := cutLine_cut hc
        refine ⟨?_, r, by rw [h2]; rfl⟩
        simp only [List.mem_cons, not_or]
        exact ⟨fun e => hb e.symm, h1⟩

theorem cutLine_no : ∀ {bs : List Byte}, cutLine bs = none → 10 ∉ bs
  | [], _ => by simp
  | b :: bs, h => by
    rw [cutLine] at h
    split at h
    · cases h
    · rename_i hb
      simp only [List.mem_cons, not_or]
      refine ⟨fun e => hb e.symm, cutLine_no ?_⟩
      cases hc : cutLine bs with
      | none => rfl
      | some l' => rw [hc] at h; cases h

/-- Reading a line takes at most one line feed. -/
theorem readLine_count {bs l r : List Byte} (h : readLine bs = some (l, r)) : bs.count 10 ≤ r.count 10 + 1 := by
  unfold readLine at h
  split at h
  · cases h
  · cases hc : cutLine (bs.take bufSize) with
    | some l' =>
      rw [hc] at h
      cases h
      obtain ⟨h1, r', h2⟩ := cutLine_cut hc
      have e : bs = l' ++ 10 :: (r' ++ bs.drop bufSize) := by
        conv => lhs; rw [← List.take_append_drop bufSize bs, h2]
        simp
      have e2 : bs.drop (l'.length + 1) = r' ++ bs.drop bufSize := by
        conv => lhs; rw [e]
        rw [← List.drop_drop, List.drop_left]
        rfl
      rw [e2]
      conv => lhs; rw [e]
      rw [List.count_append, List.count_eq_zero.2 h1, List.count_cons]
      simp
    | none =>
      have hn := cutLine_no hc
      rw [hc] at h
      dsimp only at h
      have key : ∀ k, k ≤ bufSize → bs.count 10 = (bs.drop k).count 10 := by
        intro k hk
        conv => lhs; rw [← List.take_append_drop k bs, List.count_append]
        have : (bs.take k).count 10 = 0 := by
          refine List.count_eq_zero.2 fun hm => hn ?_
          have : bs.take k = (bs.take bufSize).take k := by rw [List.take_take, Nat.min_eq_left hk]
          rw [this] at hm
          exact List.mem_of_mem_take hm
        omega
      split at h
      · rename_i hlt
        cases h
        rw [List.take_of_length_le (by omega)] at hn
        rw [List.count_eq_zero.2 hn]
        omega
      · split at h
        · cases h
          rw [key (bufSize - 1) (by omega)]
          omega
        · cases h
          rw [key bufSize (Nat.le_refl _)]
          omega

theorem skipLines_some : ∀ {n : Nat} {bs : List Byte}, n ≤ bs.count 10 → ∃ r, skipLines n bs = some r
  | 0, bs, _ => ⟨bs, rfl⟩
  | n + 1, bs, h => by
    rw [skipLines]
    cases hr : readLine bs with
    | none =>
      exfalso
      unfold readLine at hr
      split at hr
      · rename_i h0
        rw [h0] at h
        simp at h
      · split at hr
        · cases hr
        · split at hr
          · cases hr
          · split at hr <;> cases hr
    | some p =>
      obtain ⟨l, r⟩ := p
      have := readLine_count hr
      exact skipLines_some (by omega)

/-- A file has a line for each line feed, and one more; long lines count as several. -/
theorem lineInQuestion_some {bs : List Byte} {n : Nat} (h : n ≤ bs.count 10 + 1) : ∃ t, lineInQuestion bs n = some t := by
  obtain ⟨r, hr⟩ := skipLines_some (n := n - 1) (bs := bs) (by omega)
  unfold lineInQuestion
  rw [hr]
  dsimp only
  cases readLine r with
  | none => exact ⟨_, rfl⟩
  | some p => exact ⟨_, rfl⟩

theorem count_utf8 (d : Str) : (utf8 d).count 10 = d.count '\n' := by
  induction d with
  | nil => rfl
  | cons c d ih =>
    rw [utf8_cons, List.count_append, ih, List.count_cons]
    by_cases hc : c = '\n'
    · subst hc
      rw [utf8Char_nl]
      simp
      omega
    · have : (utf8Char c).count 10 = 0 := by
        refine List.count_eq_zero.2 fun hm => hc ?_
        exact char_eq (mem_utf8Char (by decide) hm)
      rw [this]
      simp [hc]

end Booklit
