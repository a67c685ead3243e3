import Verif.Lemmas.EscapeL
import Verif.Lemmas.AuxL
import Verif.Model.Html
import Verif.Spec.Looks

/-!
Rendering to trees of elements instead of texts, and that the rendered texts are read as these trees.
-/

namespace Booklit

/-! ### Rendering to trees -/

/-- The element for a style. -/
def styleElem (style : Str) : Option (Str × List (Str × Str)) :=
  if style = q%"aside" then some (q%"blockquote", [(q%"class", q%"aside")])
  else if style = q%"bold" then some (q%"strong", [])
  else if style = q%"inset" then some (q%"div", [(q%"style", q%"margin: 0 2em 1em"), (q%"class", q%"inset")])
  else if style = q%"italic" then some (q%"em", [])
  else if style = q%"larger" then some (q%"span", [(q%"style", q%"font-size: 120%")])
  else if style = q%"smaller" then some (q%"span", [(q%"style", q%"font-size: 80%")])
  else if style = q%"strike" then some (q%"span", [(q%"style", q%"text-decoration: line-through")])
  else if style = q%"subscript" then some (q%"sub", [])
  else if style = q%"superscript" then some (q%"sup", [])
  else none

/-- Nodes with a separator between them. -/
def joinDom (sep : List Dom) : List (List Dom) → List Dom
  | [] => []
  | [t] => t
  | t :: ts => t ++ sep ++ joinDom sep ts

/-- `Inner` for trees. -/
structure InnerDom where
  ref : Nat → Str → Content → Bool → Location → Res (List Dom)
  sect : Nat → Res (List Dom)
  toc : Nat → Res (List Dom)
  force : Nat → Res (List Dom)
  raw : Content → Res (List Dom)

/-- The text as it arrives. -/
def arrives (s : Str) : List Dom := chars (s.map arriving)

mutual
def Content.dom (I : InnerDom) : Content → Res (List Dom)
  | .nil => tmplErr
  | .str s => .ok (arrives s)
  | .seq cs => (domL I cs).map List.flatten
  | .para cs => (domL I cs).map fun ts => [.elem q%"p" [] (joinDom (chars [' ']) ts)]
  | .pre cs => (domL I cs).map (joinDom (chars ['\n']))
  | .ref s t c o l => I.ref s t c o l
  | .sect i => I.sect i
  | .toc i => I.toc i
  | .styled st b c _ =>
    if st = q%"verbatim" then
      match if b then some false else isFlow c with
      | none => tmplErr
      | some true => (c.dom I).map fun t => [.elem q%"code" [] t]
      | some false => (c.dom I).map fun t => [.elem q%"pre" [] t]
    else if st = q%"raw-html" then (I.raw c).recover
    else match styleElem st with
      | none => tmplErr
      | some (a, as) => (c.dom I).map fun t => [.elem a as t]
  | .target t _ _ _ => .ok [.elem q%"a" [(q%"id", t.map arriving)] []]
  | .image p d => .ok [.elem q%"img" [(q%"src", linkTo p), (q%"alt", d.map arriving)] []]
  | .list cs o => (domL I cs).map fun ts =>
    [.elem (if o then q%"ol" else q%"ul") [] (chars q%"\n" ++ (ts.flatMap fun t =>
      chars q%"\n  " ++ [.elem q%"li" [] t] ++ chars q%"\n") ++ chars q%"\n")]
  | .link c u => (c.dom I).map fun t => [.elem q%"a" [(q%"href", linkTo u)] t]
  | .table rs => (domR I rs).map fun rows =>
    [.elem q%"table" [] (chars q%"\n  " ++ (rows.flatMap fun r =>
      chars q%"\n  " ++ [.elem q%"tr" [] (chars q%"\n    "
        ++ (r.flatMap fun t => chars q%"\n    " ++ [.elem q%"td" [] t] ++ chars q%"\n    ") ++ chars q%"\n  ")]
        ++ chars q%"\n  ") ++ chars q%"\n")]
  | .defs ds => (domD I ds).map fun prs =>
    [.elem q%"dl" [] (chars q%"\n  " ++ (prs.flatMap fun p =>
      chars q%"\n  " ++ [.elem q%"dt" [] p.1] ++ chars q%"\n    " ++ [.elem q%"dd" [] p.2] ++ chars q%"\n  ")
      ++ chars q%"\n")]
  | .lazy _ i => I.force i
  | .aux c => c.dom I
def domL (I : InnerDom) : List Content → Res (List (List Dom))
  | [] => .ok []
  | c :: cs => (c.dom I).bind fun t => (domL I cs).map (t :: ·)
def domR (I : InnerDom) : List (List Content) → Res (List (List (List Dom)))
  | [] => .ok []
  | r :: rs => (domL I r).bind fun t => (domR I rs).map (t :: ·)
def domD (I : InnerDom) : List (Content × Content) → Res (List (List Dom × List Dom))
  | [] => .ok []
  | (a, b) :: ds => (a.dom I).bind fun ta => (b.dom I).bind fun tb => (domD I ds).map ((ta, tb) :: ·)
end

def Heap.refDom (S : Site) (h : Heap) (n : Nat) (render : Content → Res (List Dom)) (s : Nat) (t : Str) (c : Content)
    (o : Bool) (l : Location) : Res (List Dom) :=
  match h.refTag n S.brokenOk s t o l with
  | none => .more
  | some (.tag g) =>
    match g.sec with
    | none => tmplErr
    | some i =>
      (Res.ofFuel (h.sectionURL htmlExt n i g.anchor)).bind fun u =>
        match stripAux (if c.isNil then g.title else c) with
        | none => tmplErr
        | some d => (render d).map fun x => [.elem q%"a" [(q%"href", linkTo u)] x]
  | some .nothing =>
    match stripAux c with
    | none => tmplErr
    | some d => render d
  | some .unknown => h.unknownTag n s t l
  | some (.ambiguous ls) => h.ambiguousTag n s t l ls

def Heap.sectDom (h : Heap) (n : Nat) (render : Content → Res (List Dom)) (i : Nat) : Res (List Dom) :=
  let x := h.get i
  if x.style ≠ [] ∧ x.style ≠ q%"section" then tmplErr
  else
    (Res.ofFuel (h.headerDepth n i)).bind fun d =>
    (if x.parent.isSome then
      (Res.ofFuel (h.number n i)).map fun k =>
        [Dom.elem q%"span" [(q%"class", q%"section-number")] (arrives k ++ chars q%" ")]
     else .ok []).bind fun num =>
    (render x.title).bind fun title =>
    (render x.body).bind fun body =>
    (if x.split then .ok []
     else (resMap (fun c => render (.sect c)) x.children).map fun ts =>
      chars q%"\n  " ++ (ts.flatMap fun t => chars q%"\n    " ++ t ++ chars q%"\n  ") ++ chars q%"\n").map fun kids =>
    [.elem ('h' :: decimal d) [(q%"class", q%"section-header")]
        ([.elem q%"a" [(q%"id", x.primaryTag.name.map arriving)] []] ++ num ++ title)]
      ++ chars q%"\n\n" ++ body ++ chars q%"\n\n" ++ kids

def Heap.tocEntryDom (h : Heap) (n : Nat) (render : Content → Res (List Dom)) (toc : Nat → Res (List Dom)) (c : Nat) :
    Res (List Dom) :=
  match (h.get c).primaryTag.sec with
  | none => tmplErr
  | some i =>
    (Res.ofFuel (h.sectionURL htmlExt n i (h.get c).primaryTag.anchor)).bind fun u =>
    (Res.ofFuel (h.number n c)).bind fun k =>
    match stripAux (h.get c).title with
    | none => tmplErr
    | some d =>
      (render d).bind fun title =>
      (toc c).map fun below =>
        chars q%"\n    " ++ [.elem q%"li" [] (chars q%"\n      "
          ++ [.elem q%"a" [(q%"href", linkTo u)] (arrives k ++ chars q%" " ++ title)] ++ chars q%"\n\n      " ++ below
          ++ chars q%"\n    ")] ++ chars q%"\n  "

def Heap.tocDom (h : Heap) (render : Content → Res (List Dom)) : Nat → Nat → Res (List Dom)
  | 0, _ => .more
  | n + 1, i =>
    if (h.get i).children = [] ∨ (h.get i).omitToc then .ok []
    else (resMap (h.tocEntryDom n render (h.tocDom render n)) (h.get i).children).map fun ts =>
      chars q%"\n" ++ [.elem q%"nav" [] (chars q%"\n  " ++ [.elem q%"ul" [] (chars q%"\n  " ++ ts.flatten
        ++ chars q%"\n  ")] ++ chars q%"\n")] ++ chars q%"\n"

/-- Raw HTML is not read: `raw` says what it stands for. -/
def Heap.dom (S : Site) (h : Heap) (raw : Content → Res (List Dom)) : Nat → Content → Res (List Dom)
  | 0, c => c.dom ⟨fun _ _ _ _ _ => .more, fun _ => .more, fun _ => .more, fun _ => .more, fun _ => .more⟩
  | n + 1, c => c.dom
    ⟨h.refDom S n (h.dom S raw n), h.sectDom n (h.dom S raw n), h.tocDom (h.dom S raw n) n,
      fun i => match S.force i with
        | none => tmplErr
        | some d => h.dom S raw n d,
      raw⟩

/-! ### The rendered text is read as the tree -/

/-- Two results of the same kind, the values related. -/
def RSim {α β : Type} (R : α → β → Prop) : Res α → Res β → Prop
  | .ok a, .ok b => R a b
  | .err e, .err f => e = f
  | .panic, .panic => True
  | .more, .more => True
  | _, _ => False

theorem RSim.map {α β γ δ : Type} {R : α → β → Prop} {Q : γ → δ → Prop} {x : Res α} {y : Res β} {f : α → γ} {g : β → δ}
    (h : RSim R x y) (hf : ∀ a b, R a b → Q (f a) (g b)) : RSim Q (x.map f) (y.map g) := by
  cases x <;> cases y <;> first | exact hf _ _ h | exact h | cases h

theorem RSim.bind {α β γ δ : Type} {R : α → β → Prop} {Q : γ → δ → Prop} {x : Res α} {y : Res β} {f : α → Res γ}
    {g : β → Res δ} (h : RSim R x y) (hf : ∀ a b, R a b → RSim Q (f a) (g b)) : RSim Q (x.bind f) (y.bind g) := by
  cases x <;> cases y <;> first | exact hf _ _ h | exact h | cases h

theorem RSim.recover {α β : Type} {R : α → β → Prop} {x : Res α} {y : Res β} (h : RSim R x y) :
    RSim R x.recover y.recover := by
  cases x <;> cases y <;> first | exact h | cases h | skip
  exact rfl

theorem RSim.same {α : Type} {x : Res α} : RSim (fun a b => a = b) x x := by
  cases x <;> first | exact rfl | exact trivial

theorem unknownTag_fails {α : Type} (h : Heap) (n s : Nat) (t : Str) (l : Location) :
    (h.unknownTag n s t l : Res α) = .more ∨ ∃ p gs, h.filePath n s = some p ∧ h.tagsUp (fun _ => true) n none s = some gs ∧
      (h.unknownTag n s t l : Res α) = .err (.unknownTag t (gs.map Tag.name) p l) := by
  rw [Heap.unknownTag]
  cases h.filePath n s with
  | none => exact .inl rfl
  | some p =>
    cases h.tagsUp (fun _ => true) n none s with
    | none => exact .inl rfl
    | some gs => exact .inr ⟨p, gs, rfl, rfl, rfl⟩

theorem unknownTag_ne {α : Type} {h : Heap} {n s : Nat} {t : Str} {l : Location} {a : α} : h.unknownTag n s t l ≠ .ok a := by
  rcases unknownTag_fails h n s t l with e | ⟨p, gs, _, _, e⟩ <;> rw [e] <;> simp

theorem ambiguousTag_ne {α : Type} {h : Heap} {n s : Nat} {t : Str} {l : Location} {ls} {a : α} :
    h.ambiguousTag n s t l ls ≠ .ok a := by
  rw [Heap.ambiguousTag]
  generalize resMap _ ls = x
  cases x with
  | ok ds => cases h.filePath n s <;> simp [Res.ofFuel, Res.bind]
  | _ => simp [Res.bind]

theorem RSim.unknownTag {α β : Type} {R : α → β → Prop} (h : Heap) (n s : Nat) (t : Str) (l : Location) :
    RSim R (h.unknownTag n s t l) (h.unknownTag n s t l) := by
  rw [Heap.unknownTag, Heap.unknownTag]
  cases h.filePath n s with
  | none => exact trivial
  | some p => cases h.tagsUp (fun _ => true) n none s <;> first | exact trivial | exact rfl

theorem RSim.ambiguousTag {α β : Type} {R : α → β → Prop} (h : Heap) (n s : Nat) (t : Str) (l : Location) (ls) :
    RSim R (h.ambiguousTag n s t l ls) (h.ambiguousTag n s t l ls) := by
  rw [Heap.ambiguousTag, Heap.ambiguousTag]
  refine RSim.bind .same fun a b e => ?_
  cases e
  cases h.filePath n s <;> first | exact trivial | exact rfl

theorem RSim.tmplErr {α β : Type} {R : α → β → Prop} : RSim R Booklit.tmplErr Booklit.tmplErr := rfl

theorem All2.flatten {ss : List Str} {ds : List (List Dom)} (h : All2 Reads ss ds) : Reads ss.flatten ds.flatten := by
  induction h with
  | nil => exact .nil
  | cons h _ ih => exact h.append ih

theorem All2.flatMap {α β : Type} {R : α → β → Prop} {f : α → Str} {g : β → List Dom} {ss : List α} {ds : List β}
    (h : All2 R ss ds) (hf : ∀ a b, R a b → Reads (f a) (g b)) : Reads (ss.flatMap f) (ds.flatMap g) := by
  induction h with
  | nil => exact .nil
  | cons h _ ih =>
    rw [List.flatMap_cons, List.flatMap_cons]
    exact (hf _ _ h).append ih

theorem All2.join {sep : Str} {sd : List Dom} (hs : Reads sep sd) {ss : List Str} {ds : List (List Dom)}
    (h : All2 Reads ss ds) : Reads (joinWith sep ss) (joinDom sd ds) := by
  induction h with
  | nil => exact .nil
  | cons h t ih =>
    cases t with
    | nil => exact h
    | cons h' t' => exact (h.append hs).append ih

theorem RSim.resMap {α : Type} {β γ : Type} {R : β → γ → Prop} {f : α → Res β} {g : α → Res γ} {l : List α}
    (h : ∀ a ∈ l, RSim R (f a) (g a)) : RSim (All2 R) (resMap f l) (resMap g l) := by
  induction l with
  | nil => exact .nil
  | cons a l ih =>
    refine (h a (by simp)).bind fun x y hxy => ?_
    exact (ih fun b hb => h b (by simp [hb])).map fun xs ys hl => .cons hxy hl

/-! Reading of the pieces of the templates. -/

theorem Reads.ws {s : Str} (h : s.all (fun c => c != '<' && c != '&') = true) : Reads s (chars s) := by
  induction s with
  | nil => exact .nil
  | cons c s ih =>
    rw [List.all_cons, Bool.and_eq_true] at h
    obtain ⟨h1, h2⟩ := h
    simp only [Bool.and_eq_true, bne_iff_ne, ne_eq] at h1
    exact (Reads.plain h1.1 h1.2).append (ih h2)

theorem Reads.around {a z s : Str} {name as ds} (h : Reads s ds)
    (ha : ∀ cur opens rest,
      Reader.run ⟨.text, cur, opens⟩ (a ++ rest) = Reader.run ⟨.text, [], ⟨name, as, cur⟩ :: opens⟩ rest)
    (hz : ∀ cur opens as0 before rest, Reader.run ⟨.text, cur, ⟨name, as0, before⟩ :: opens⟩ (z ++ rest)
      = Reader.run ⟨.text, before ++ [.elem name as0 cur], opens⟩ rest) :
    Reads (a ++ s ++ z) [.elem name as ds] := by
  intro cur opens rest
  rw [List.append_assoc, List.append_assoc, ha, h, hz]
  simp

theorem style_reads {st : Str} {t : Str} {ds : List Dom} (h : Reads t ds) :
    match styleTags st, styleElem st with
    | some (a, z), some (n, as) => Reads (a ++ t ++ z) [.elem n as ds]
    | none, none => True
    | _, _ => False := by
  unfold styleTags styleElem
  by_cases h1 : st = q%"aside"
  · simp only [if_pos h1]; exact h.around (fun _ _ _ => rfl) (fun _ _ _ _ _ => rfl)
  by_cases h2 : st = q%"bold"
  · simp only [if_neg h1, if_pos h2]; exact h.around (fun _ _ _ => rfl) (fun _ _ _ _ _ => rfl)
  by_cases h3 : st = q%"inset"
  · simp only [if_neg h1, if_neg h2, if_pos h3]; exact h.around (fun _ _ _ => rfl) (fun _ _ _ _ _ => rfl)
  by_cases h4 : st = q%"italic"
  · simp only [if_neg h1, if_neg h2, if_neg h3, if_pos h4]; exact h.around (fun _ _ _ => rfl) (fun _ _ _ _ _ => rfl)
  by_cases h5 : st = q%"larger"
  · simp only [if_neg h1, if_neg h2, if_neg h3, if_neg h4, if_pos h5]
    exact h.around (fun _ _ _ => rfl) (fun _ _ _ _ _ => rfl)
  by_cases h6 : st = q%"smaller"
  · simp only [if_neg h1, if_neg h2, if_neg h3, if_neg h4, if_neg h5, if_pos h6]
    exact h.around (fun _ _ _ => rfl) (fun _ _ _ _ _ => rfl)
  by_cases h7 : st = q%"strike"
  · simp only [if_neg h1, if_neg h2, if_neg h3, if_neg h4, if_neg h5, if_neg h6, if_pos h7]
    exact h.around (fun _ _ _ => rfl) (fun _ _ _ _ _ => rfl)
  by_cases h8 : st = q%"subscript"
  · simp only [if_neg h1, if_neg h2, if_neg h3, if_neg h4, if_neg h5, if_neg h6, if_neg h7, if_pos h8]
    exact h.around (fun _ _ _ => rfl) (fun _ _ _ _ _ => rfl)
  by_cases h9 : st = q%"superscript"
  · simp only [if_neg h1, if_neg h2, if_neg h3, if_neg h4, if_neg h5, if_neg h6, if_neg h7, if_neg h8, if_pos h9]
    exact h.around (fun _ _ _ => rfl) (fun _ _ _ _ _ => rfl)
  simp only [if_neg h1, if_neg h2, if_neg h3, if_neg h4, if_neg h5, if_neg h6, if_neg h7, if_neg h8, if_neg h9]

theorem Reads.link {t : Str} {ds : List Dom} (u : Str) (h : Reads t ds) :
    Reads (q%"<a href=\"" ++ Booklit.escURL u ++ q%"\">" ++ t ++ q%"</a>")
      [.elem q%"a" [(q%"href", linkTo u)] ds] := by
  refine h.around (fun cur opens rest => ?_) (fun _ _ _ _ _ => rfl)
  rw [List.append_assoc, List.append_assoc]
  have : ∀ x, Reader.run ⟨.text, cur, opens⟩ (q%"<a href=\"" ++ x)
      = Reader.run ⟨.value q%"a" [] q%"href" [], cur, opens⟩ x := fun _ => rfl
  rw [this, ReadsV.escURL u]
  rfl

theorem Reads.anchor (t : Str) :
    Reads (q%"<a id=\"" ++ Booklit.escAttr t ++ q%"\"></a>") [.elem q%"a" [(q%"id", t.map arriving)] []] := by
  intro cur opens rest
  rw [List.append_assoc, List.append_assoc]
  have : ∀ x, Reader.run ⟨.text, cur, opens⟩ (q%"<a id=\"" ++ x)
      = Reader.run ⟨.value q%"a" [] q%"id" [], cur, opens⟩ x := fun _ => rfl
  rw [this, ReadsV.escAttr t]
  rfl

theorem Reads.image (p d : Str) :
    Reads (q%"<img src=\"" ++ Booklit.escURL p ++ q%"\" alt=\"" ++ Booklit.escAttr d ++ q%"\" />")
      [.elem q%"img" [(q%"src", linkTo p), (q%"alt", d.map arriving)] []] := by
  intro cur opens rest
  rw [List.append_assoc, List.append_assoc, List.append_assoc, List.append_assoc]
  have : ∀ x, Reader.run ⟨.text, cur, opens⟩ (q%"<img src=\"" ++ x)
      = Reader.run ⟨.value q%"img" [] q%"src" [], cur, opens⟩ x := fun _ => rfl
  rw [this, ReadsV.escURL p]
  have : ∀ v x, Reader.run ⟨.value q%"img" [] q%"src" v, cur, opens⟩ (q%"\" alt=\"" ++ x)
      = Reader.run ⟨.value q%"img" [(q%"src", v)] q%"alt" [], cur, opens⟩ x := fun _ _ => rfl
  rw [this, ReadsV.escAttr d]
  rfl

/-- Tags without attributes. -/
macro "elem_of" h:term : term => `(Reads.around $h (fun _ _ _ => rfl) (fun _ _ _ _ _ => rfl))

/-- The parts that need the sections are read as trees. -/
structure InnerSim (ok : Content → Bool) (I : Inner) (J : InnerDom) : Prop where
  ref : ∀ s t c o l, (Content.ref s t c o l).all ok = true → RSim Reads (I.ref s t c o l) (J.ref s t c o l)
  sect : ∀ i, RSim Reads (I.sect i) (J.sect i)
  toc : ∀ i, RSim Reads (I.toc i) (J.toc i)
  force : ∀ b i, ok (.lazy b i) = true → RSim Reads (I.force i) (J.force i)
  raw : ∀ st b c ps, st = q%"raw-html" → (Content.styled st b c ps).all ok = true → RSim Reads (I.raw c) (J.raw c)

theorem htmlL_sim {ok : Content → Bool} {I : Inner} {J : InnerDom} {cs : List Content} (hc : allL ok cs = true)
    (h : ∀ c ∈ cs, c.all ok = true → RSim Reads (c.html I) (c.dom J)) : RSim (All2 Reads) (htmlL I cs) (domL J cs) := by
  induction cs with
  | nil => exact .nil
  | cons c cs ih =>
    rw [allL, Bool.and_eq_true] at hc
    refine (h c (by simp) hc.1).bind fun x y hxy => ?_
    exact (ih hc.2 fun b hb => h b (by simp [hb])).map fun xs ys hl => .cons hxy hl

theorem htmlR_sim {ok : Content → Bool} {I : Inner} {J : InnerDom} {rs : List (List Content)} (hc : allR ok rs = true)
    (h : ∀ r ∈ rs, ∀ c ∈ r, c.all ok = true → RSim Reads (c.html I) (c.dom J)) :
    RSim (All2 (All2 Reads)) (htmlR I rs) (domR J rs) := by
  induction rs with
  | nil => exact .nil
  | cons r rs ih =>
    rw [allR, Bool.and_eq_true] at hc
    refine (htmlL_sim hc.1 (h r (by simp))).bind fun x y hxy => ?_
    exact (ih hc.2 fun b hb => h b (by simp [hb])).map fun xs ys hl => .cons hxy hl

theorem htmlD_sim {ok : Content → Bool} {I : Inner} {J : InnerDom} {ds : List (Content × Content)} (hc : allD ok ds = true)
    (h : ∀ d ∈ ds, (d.1.all ok = true → RSim Reads (d.1.html I) (d.1.dom J))
      ∧ (d.2.all ok = true → RSim Reads (d.2.html I) (d.2.dom J))) :
    RSim (All2 fun a b => Reads a.1 b.1 ∧ Reads a.2 b.2) (htmlD I ds) (domD J ds) := by
  induction ds with
  | nil => exact .nil
  | cons d ds ih =>
    obtain ⟨a, b⟩ := d
    rw [allD, Bool.and_eq_true, Bool.and_eq_true] at hc
    refine ((h (a, b) (by simp)).1 hc.1.1).bind fun x y hxy => ?_
    refine ((h (a, b) (by simp)).2 hc.1.2).bind fun x' y' hxy' => ?_
    exact (ih hc.2 fun b hb => h b (by simp [hb])).map fun xs ys hl => .cons ⟨hxy, hxy'⟩ hl

theorem html_sim {ok : Content → Bool} {I : Inner} {J : InnerDom} (hI : InnerSim ok I J) (c : Content) :
    c.all ok = true → RSim Reads (c.html I) (c.dom J) := by
  induction c using Content.ind with
  | nil => intro _; exact .tmplErr
  | str s => intro _; exact Reads.escText s
  | seq cs ih =>
    intro hc
    rw [Content.all, Bool.and_eq_true] at hc
    exact (htmlL_sim hc.2 ih).map fun a b hab => hab.flatten
  | para cs ih =>
    intro hc
    rw [Content.all, Bool.and_eq_true] at hc
    exact (htmlL_sim hc.2 ih).map fun a b hab => elem_of (hab.join (Reads.ws rfl))
  | pre cs ih =>
    intro hc
    rw [Content.all, Bool.and_eq_true] at hc
    exact (htmlL_sim hc.2 ih).map fun a b hab => hab.join (Reads.ws rfl)
  | ref s t c o l ih => exact hI.ref s t c o l
  | sect i => intro _; exact hI.sect i
  | toc i => intro _; exact hI.toc i
  | styled st b c ps ih ihp =>
    intro hc
    have hr := hI.raw st b c ps
    rw [Content.html, Content.dom]
    split
    · rw [Content.all, Bool.and_eq_true, Bool.and_eq_true] at hc
      cases (if b = true then some false else isFlow c) with
      | none => exact .tmplErr
      | some v =>
        cases v with
        | true => exact (ih hc.1.2).map fun x y hxy => elem_of hxy
        | false => exact (ih hc.1.2).map fun x y hxy => elem_of hxy
    · split
      · rename_i hst
        exact (hr hst hc).recover
      · rw [Content.all, Bool.and_eq_true, Bool.and_eq_true] at hc
        have hs := fun t ds => style_reads (st := st) (t := t) (ds := ds)
        cases h1 : styleTags st with
        | none =>
          cases h2 : styleElem st with
          | none => exact .tmplErr
          | some q => rw [h1, h2] at hs; exact (hs [] [] .nil).elim
        | some p =>
          cases h2 : styleElem st with
          | none => rw [h1, h2] at hs; exact (hs [] [] .nil).elim
          | some q =>
            rw [h1, h2] at hs
            exact (ih hc.1.2).map fun x y hxy => hs x y hxy
  | target t l ti c _ _ => intro _; exact Reads.anchor t
  | image p d => intro _; exact Reads.image p d
  | list cs o ih =>
    intro hc
    rw [Content.all, Bool.and_eq_true] at hc
    refine (htmlL_sim hc.2 ih).map fun a b hab => ?_
    have hin : Reads (q%"\n" ++ (a.flatMap fun t => q%"\n  <li>" ++ t ++ q%"</li>\n") ++ q%"\n")
        (chars q%"\n" ++ (b.flatMap fun t => chars q%"\n  " ++ [.elem q%"li" [] t] ++ chars q%"\n") ++ chars q%"\n") := by
      refine ((Reads.ws rfl).append (hab.flatMap fun x y hxy => ?_)).append (Reads.ws rfl)
      have := ((Reads.ws (s := q%"\n  ") rfl).append (elem_of hxy : Reads (q%"<li>" ++ x ++ q%"</li>") [.elem q%"li" [] y])).append
        (Reads.ws (s := q%"\n") rfl)
      simpa using this
    cases o with
    | true =>
      have := (elem_of hin : Reads (q%"<ol>" ++ _ ++ q%"</ol>") [.elem q%"ol" [] _])
      simpa using this
    | false =>
      have := (elem_of hin : Reads (q%"<ul>" ++ _ ++ q%"</ul>") [.elem q%"ul" [] _])
      simpa using this
  | link c u ih =>
    intro hc
    rw [Content.all, Bool.and_eq_true] at hc
    exact (ih hc.2).map fun a b hab => hab.link u
  | table rs ih =>
    intro hc
    rw [Content.all, Bool.and_eq_true] at hc
    refine (htmlR_sim hc.2 ih).map fun a b hab => ?_
    have hin : Reads (q%"\n  " ++ (a.flatMap fun r =>
        q%"\n  <tr>\n    " ++ (r.flatMap fun t => q%"\n    <td>" ++ t ++ q%"</td>\n    ") ++ q%"\n  </tr>\n  ")
        ++ q%"\n") (chars q%"\n  " ++ (b.flatMap fun r =>
        chars q%"\n  " ++ [.elem q%"tr" [] (chars q%"\n    "
          ++ (r.flatMap fun t => chars q%"\n    " ++ [.elem q%"td" [] t] ++ chars q%"\n    ") ++ chars q%"\n  ")]
          ++ chars q%"\n  ") ++ chars q%"\n") := by
      refine ((Reads.ws rfl).append (hab.flatMap fun x y hxy => ?_)).append (Reads.ws rfl)
      have hrow : Reads (q%"\n    " ++ (x.flatMap fun t => q%"\n    <td>" ++ t ++ q%"</td>\n    ") ++ q%"\n  ")
          (chars q%"\n    " ++ (y.flatMap fun t => chars q%"\n    " ++ [.elem q%"td" [] t] ++ chars q%"\n    ")
            ++ chars q%"\n  ") := by
        refine ((Reads.ws rfl).append (hxy.flatMap fun s d hsd => ?_)).append (Reads.ws rfl)
        have := ((Reads.ws (s := q%"\n    ") rfl).append
          (elem_of hsd : Reads (q%"<td>" ++ s ++ q%"</td>") [.elem q%"td" [] d])).append (Reads.ws (s := q%"\n    ") rfl)
        simpa using this
      have := ((Reads.ws (s := q%"\n  ") rfl).append
        (elem_of hrow : Reads (q%"<tr>" ++ _ ++ q%"</tr>") [.elem q%"tr" [] _])).append (Reads.ws (s := q%"\n  ") rfl)
      simpa using this
    have := (elem_of hin : Reads (q%"<table>" ++ _ ++ q%"</table>") [.elem q%"table" [] _])
    simpa using this
  | defs ds ih =>
    intro hc
    rw [Content.all, Bool.and_eq_true] at hc
    refine (htmlD_sim hc.2 ih).map fun a b hab => ?_
    have hin : Reads (q%"\n  " ++ (a.flatMap fun p =>
        q%"\n  <dt>" ++ p.1 ++ q%"</dt>\n    <dd>" ++ p.2 ++ q%"</dd>\n  ") ++ q%"\n")
        (chars q%"\n  " ++ (b.flatMap fun p =>
          chars q%"\n  " ++ [.elem q%"dt" [] p.1] ++ chars q%"\n    " ++ [.elem q%"dd" [] p.2] ++ chars q%"\n  ")
          ++ chars q%"\n") := by
      refine ((Reads.ws rfl).append (hab.flatMap fun x y hxy => ?_)).append (Reads.ws rfl)
      have := (((Reads.ws (s := q%"\n  ") rfl).append
        (elem_of hxy.1 : Reads (q%"<dt>" ++ _ ++ q%"</dt>") [.elem q%"dt" [] _])).append
        ((Reads.ws (s := q%"\n    ") rfl).append
        (elem_of hxy.2 : Reads (q%"<dd>" ++ _ ++ q%"</dd>") [.elem q%"dd" [] _]))).append (Reads.ws (s := q%"\n  ") rfl)
      simpa using this
    have := (elem_of hin : Reads (q%"<dl>" ++ _ ++ q%"</dl>") [.elem q%"dl" [] _])
    simpa using this
  | lazy b i => intro hc; exact hI.force b i hc
  | aux c ih =>
    intro hc
    rw [Content.all, Bool.and_eq_true] at hc
    exact ih hc.2

/-! ### Stripping keeps what holds of all parts -/

theorem strip_all {p : Content → Bool} (hp : ∀ c c', c.isAux = false → stripAux c = some c' → p c = true → p c' = true)
    (c : Content) : ∀ c', stripAux c = some c' → c.all p = true → c'.all p = true := by
  have seqs : ∀ {cs cs' : List Content}, (∀ c ∈ cs, ∀ c', stripAux c = some c' → c.all p = true → c'.all p = true) →
      stripAuxSeq cs = some cs' → allL p cs = true → allL p cs' = true := by
    intro cs cs' ih e h
    refine allL_iff.2 fun d hd => ?_
    obtain ⟨d0, hd0, _, h'⟩ := seq_mem e hd
    exact ih d0 hd0 d h' (allL_iff.1 h d0 hd0)
  induction c using Content.ind with
  | nil => intro c' h; simp [stripAux] at h
  | str | sect | toc | image | lazy => intro c' h ha; simp [stripAux] at h; subst h; exact ha
  | seq cs ih | para cs ih | pre cs ih =>
    intro c' h ha
    have h0 := hp _ _ rfl h (all_self ha)
    cases h1 : stripAuxSeq cs <;> simp [stripAux, h1] at h
    subst h
    rw [Content.all, Bool.and_eq_true] at ha ⊢
    exact ⟨h0, seqs ih h1 ha.2⟩
  | list cs o ih =>
    intro c' h ha
    have h0 := hp _ _ rfl h (all_self ha)
    cases h1 : stripAuxSeq cs <;> simp [stripAux, h1] at h
    subst h
    rw [Content.all, Bool.and_eq_true] at ha ⊢
    exact ⟨h0, seqs ih h1 ha.2⟩
  | ref s t c o l ih =>
    intro c' h ha
    have h0 := hp _ _ rfl h (all_self ha)
    cases h1 : stripAux c <;> simp [stripAux, h1] at h
    subst h
    rw [Content.all, Bool.and_eq_true] at ha ⊢
    exact ⟨h0, ih _ h1 ha.2⟩
  | styled st b c ps ih ihp =>
    intro c' h ha
    have h0 := hp _ _ rfl h (all_self ha)
    cases h1 : stripAux c <;> simp [stripAux, h1] at h
    cases h2 : stripAuxPartials ps <;> simp [h2] at h
    subst h
    rw [Content.all, Bool.and_eq_true, Bool.and_eq_true] at ha ⊢
    refine ⟨⟨h0, ih _ h1 ha.1.2⟩, allP_iff.2 fun d hd => ?_⟩
    obtain ⟨d0, hd0, _, h'⟩ := partials_mem h2 hd
    exact ihp d0 hd0 _ h' (allP_iff.1 ha.2 d0 hd0)
  | target t l ti c ih1 ih2 =>
    intro c' h ha
    have h0 := hp _ _ rfl h (all_self ha)
    cases h1 : stripAux ti <;> simp [stripAux, h1] at h
    cases h2 : stripAux c <;> simp [h2] at h
    subst h
    rw [Content.all, Bool.and_eq_true, Bool.and_eq_true] at ha ⊢
    exact ⟨⟨h0, ih1 _ h1 ha.1.2⟩, ih2 _ h2 ha.2⟩
  | link c u ih =>
    intro c' h ha
    have h0 := hp _ _ rfl h (all_self ha)
    cases h1 : stripAux c <;> simp [stripAux, h1] at h
    subst h
    rw [Content.all, Bool.and_eq_true] at ha ⊢
    exact ⟨h0, ih _ h1 ha.2⟩
  | table rs ih =>
    intro c' h ha
    have h0 := hp _ _ rfl h (all_self ha)
    cases h1 : stripAuxRows rs <;> simp [stripAux, h1] at h
    subst h
    rw [Content.all, Bool.and_eq_true] at ha ⊢
    refine ⟨h0, allR_iff.2 fun r hr d hd => ?_⟩
    obtain ⟨r0, hr0, h2⟩ := rows_mem h1 hr
    obtain ⟨d0, hd0, _, h'⟩ := seq_mem h2 hd
    exact ih r0 hr0 d0 hd0 d h' (allR_iff.1 ha.2 r0 hr0 d0 hd0)
  | defs ds ih =>
    intro c' h ha
    have h0 := hp _ _ rfl h (all_self ha)
    cases h1 : stripAuxDefs ds <;> simp [stripAux, h1] at h
    subst h
    rw [Content.all, Bool.and_eq_true] at ha ⊢
    refine ⟨h0, allD_iff.2 fun r hr => ?_⟩
    obtain ⟨r0, hr0, h2, h3⟩ := defs_mem h1 hr
    have hh := allD_iff.1 ha.2 r0 hr0
    exact ⟨(ih r0 hr0).1 _ h2 hh.1, (ih r0 hr0).2 _ h3 hh.2⟩
  | aux c ih =>
    intro c' h ha
    rw [Content.all, Bool.and_eq_true] at ha
    exact ih c' (by simpa [stripAux] using h) ha.2

/-! ### Tags that are found are tags of sections -/

theorem tags_mem (h : Heap) (T : Nat → Prop) (hk : ∀ i, T i → ∀ c ∈ (h.get i).children, T c) (m : Str → Bool) : ∀ n : Nat,
    (∀ i ts, T i → h.tagsDown m n i = some ts → ∀ g ∈ ts, ∃ j, T j ∧ g ∈ (h.get j).tags) ∧
    (∀ ex is ts, (∀ i ∈ is, T i) → h.tagsDownAll m n ex is = some ts → ∀ g ∈ ts, ∃ j, T j ∧ g ∈ (h.get j).tags) := by
  intro n
  induction n with
  | zero =>
    refine ⟨fun i ts _ e => by simp [Heap.tagsDown] at e, fun ex is ts _ e => ?_⟩
    cases is with
    | nil => simp [Heap.tagsDownAll] at e; subst e; simp
    | cons c cs => simp [Heap.tagsDownAll] at e
  | succ n ih =>
    refine ⟨fun i ts hi e g hg => ?_, fun ex is ts hi e g hg => ?_⟩
    · simp only [Heap.tagsDown] at e
      cases h1 : h.tagsDownAll m n none (h.get i).children <;> simp [h1] at e
      subst e
      rcases List.mem_append.1 hg with hg | hg
      · exact ⟨i, hi, (List.mem_filter.1 hg).1⟩
      · exact ih.2 _ _ _ (hk i hi) h1 g hg
    · cases is with
      | nil => simp [Heap.tagsDownAll] at e; subst e; cases hg
      | cons c cs =>
        rw [Heap.tagsDownAll] at e
        split at e
        · exact ih.2 _ _ _ (fun i h => hi i (by simp [h])) e g hg
        · cases h1 : h.tagsDown m n c <;> simp [h1] at e
          cases h2 : h.tagsDownAll m n ex cs <;> simp [h2] at e
          subst e
          rcases List.mem_append.1 hg with hg | hg
          · exact ih.1 _ _ (hi c (by simp)) h1 g hg
          · exact ih.2 _ _ _ (fun i h => hi i (by simp [h])) h2 g hg

theorem tagsUp_mem (h : Heap) (T : Nat → Prop) (hk : ∀ i, T i → ∀ c ∈ (h.get i).children, T c)
    (hp : ∀ i p, T i → (h.get i).parent = some p → T p) (m : Str → Bool) : ∀ (n : Nat) ex i ts, T i →
    h.tagsUp m n ex i = some ts → ∀ g ∈ ts, ∃ j, T j ∧ g ∈ (h.get j).tags := by
  intro n
  induction n with
  | zero => intro ex i ts _ e; simp [Heap.tagsUp] at e
  | succ n ih =>
    intro ex i ts hi e g hg
    simp only [Heap.tagsUp] at e
    cases h1 : h.tagsDownAll m n ex (h.get i).children <;> simp [h1] at e
    rename_i below
    have down := (tags_mem h T hk m n).2 _ _ _ (hk i hi) h1
    cases hq : (h.get i).parent with
    | none =>
      simp [hq] at e
      subst e
      rcases List.mem_append.1 hg with hg | hg
      · exact ⟨i, hi, (List.mem_filter.1 hg).1⟩
      · exact down g hg
    | some q =>
      simp [hq] at e
      cases h2 : h.tagsUp m n (some i) q <;> simp [h2] at e
      subst e
      simp only [List.mem_append] at hg
      rcases hg with hg | hg | hg
      · exact ⟨i, hi, (List.mem_filter.1 hg).1⟩
      · exact down g hg
      · exact ih _ _ _ (hp i q hi hq) h2 g hg

/-- A resolved tag is a tag of a section, or the made-up one. -/
theorem refTag_mem {h : Heap} {T : Nat → Prop} (hk : ∀ i, T i → ∀ c ∈ (h.get i).children, T c)
    (hp : ∀ i p, T i → (h.get i).parent = some p → T p) {n : Nat} {b : Bool} {s : Nat} {t : Str} {o : Bool} {l : Location} {g : Tag}
    (hs : T s) (e : h.refTag n b s t o l = some (.tag g)) :
    (∃ j, T j ∧ g ∈ (h.get j).tags) ∨ (b = true ∧
      g = ⟨t, .str (q%"{broken reference: " ++ t ++ q%"}"), some s, q%"broken", .nil, l⟩) := by
  rw [Heap.refTag, Heap.resolve] at e
  cases hf : h.findTag n s t with
  | none => rw [hf] at e; cases e
  | some ts =>
    rw [hf] at e
    have hm := tagsUp_mem h T hk hp _ _ _ _ _ hs hf
    match ts, hm with
    | [], _ =>
      cases o <;> cases b <;> simp at e
      subst e
      exact .inr ⟨rfl, rfl⟩
    | [x], hm =>
      simp at e
      subst e
      exact .inl (hm x (by simp))
    | x :: y :: r, _ =>
      cases b <;> simp at e
      subst e
      exact .inr ⟨rfl, rfl⟩

/-! ### Rendering in a heap -/

/-- All contents that are shown satisfy `ok`. -/
structure ShownOk (ok : Content → Bool) (S : Site) (h : Heap) : Prop where
  title : ∀ i, (h.get i).title.all ok = true
  body : ∀ i, (h.get i).body.all ok = true
  tags : ∀ i, ∀ g ∈ (h.get i).tags, g.title.all ok = true
  force : ∀ b i c, ok (.lazy b i) = true → S.force i = some c → c.all ok = true
  sect : ∀ i, ok (.sect i) = true
  str : ∀ s, ok (.str s) = true
  strip : ∀ c c', c.isAux = false → stripAux c = some c' → ok c = true → ok c' = true

/-- Two renderers that agree. -/
def Agree (ok : Content → Bool) (f : Content → Res Str) (g : Content → Res (List Dom)) : Prop :=
  ∀ c, c.all ok = true → RSim Reads (f c) (g c)

theorem ref_sim {ok : Content → Bool} {S : Site} {h : Heap} (H : ShownOk ok S h) {f g} (A : Agree ok f g) (n : Nat) (s t c o l)
    (hc : (Content.ref s t c o l).all ok = true) : RSim Reads (h.refHtml S n f s t c o l) (h.refDom S n g s t c o l) := by
  rw [Content.all, Bool.and_eq_true] at hc
  rw [Heap.refHtml, Heap.refDom]
  cases e : h.refTag n S.brokenOk s t o l with
  | none => exact trivial
  | some r =>
    cases r with
    | unknown => exact .unknownTag h n s t l
    | ambiguous ls => exact .ambiguousTag h n s t l ls
    | nothing =>
      dsimp only
      cases hs : stripAux c with
      | none => exact .tmplErr
      | some d => exact A d (strip_all H.strip c d hs hc.2)
    | tag x =>
      dsimp only
      cases hx : x.sec with
      | none => exact .tmplErr
      | some i =>
        refine RSim.bind RSim.same fun u v huv => ?_
        subst huv
        have ht : (if c.isNil = true then x.title else c).all ok = true := by
          split
          · rcases refTag_mem (T := fun _ => True) (fun _ _ _ _ => trivial) (fun _ _ _ _ => trivial) trivial e with ⟨j, _, hj⟩ | ⟨_, hj⟩
            · exact H.tags j x hj
            · rw [hj]
              exact H.str _
          · exact hc.2
        cases hs : stripAux (if c.isNil = true then x.title else c) with
        | none => exact .tmplErr
        | some d => exact (A d (strip_all H.strip _ d hs ht)).map fun a b hab => hab.link u

theorem head_reads {d : Nat} (h1 : 1 ≤ d) (h6 : d ≤ 6) {s : Str} {ds : List Dom} (h : Reads s ds) :
    Reads (q%"<h" ++ decimal d ++ q%" class=\"section-header\">" ++ s ++ (q%"</h" ++ decimal d ++ q%">"))
      [.elem ('h' :: decimal d) [(q%"class", q%"section-header")] ds] := by
  have : d = 1 ∨ d = 2 ∨ d = 3 ∨ d = 4 ∨ d = 5 ∨ d = 6 := by omega
  rcases this with rfl | rfl | rfl | rfl | rfl | rfl
  all_goals exact h.around (fun _ _ _ => rfl) (fun _ _ _ _ _ => rfl)

theorem headerDepth_range {h : Heap} {n i d : Nat} (e : h.headerDepth n i = some d) : 1 ≤ d ∧ d ≤ 6 := by
  rw [Heap.headerDepth] at e
  cases hp : h.pageDepth n i with
  | none => rw [hp] at e; cases e
  | some k =>
    rw [hp] at e
    cases e
    dsimp only
    split <;> omega

theorem sect_sim {ok : Content → Bool} {S : Site} {h : Heap} (H : ShownOk ok S h) {f g} (A : Agree ok f g) (n i : Nat) :
    RSim Reads (h.sectHtml n f i) (h.sectDom n g i) := by
  rw [Heap.sectHtml, Heap.sectDom]
  split
  · exact .tmplErr
  · cases hd : h.headerDepth n i with
    | none => exact trivial
    | some d =>
      obtain ⟨h1, h6⟩ := headerDepth_range hd
      refine RSim.bind (R := Reads) ?_ fun num numD hnum => ?_
      · split
        · refine RSim.map RSim.same fun k k' hk => ?_
          subst hk
          have := (elem_of ((Reads.escText k).append (Reads.ws (s := q%" ") rfl)) :
            Reads (q%"<span class=\"section-number\">" ++ _ ++ q%"</span>")
              [.elem q%"span" [(q%"class", q%"section-number")] _])
          simpa [arrives] using this
        · exact .nil
      refine RSim.bind (A _ (H.title i)) fun title titleD htitle => ?_
      refine RSim.bind (A _ (H.body i)) fun body bodyD hbody => ?_
      refine RSim.map (R := Reads) ?_ fun kids kidsD hkids => ?_
      · split
        · exact .nil
        · refine RSim.map (RSim.resMap (R := Reads) fun c _ => A (.sect c) (H.sect c)) fun ts tsD hts => ?_
          refine ((Reads.ws rfl).append (hts.flatMap fun x y hxy => ?_)).append (Reads.ws rfl)
          exact ((Reads.ws rfl).append hxy).append (Reads.ws rfl)
      · have := ((((head_reads h1 h6 (((Reads.anchor (h.get i).primaryTag.name).append hnum).append htitle)).append
          (Reads.ws (s := q%"\n\n") rfl)).append hbody).append (Reads.ws (s := q%"\n\n") rfl)).append hkids
        simpa using this

theorem toc_sim {ok : Content → Bool} {S : Site} {h : Heap} (H : ShownOk ok S h) {f g} (A : Agree ok f g) (n : Nat) : ∀ i,
    RSim Reads (h.tocHtml f n i) (h.tocDom g n i) := by
  induction n with
  | zero => intro i; exact trivial
  | succ n ih =>
    intro i
    rw [Heap.tocHtml, Heap.tocDom]
    split
    · exact .nil
    · refine RSim.map (RSim.resMap (R := Reads) fun c _ => ?_) fun ts tsD hts => ?_
      · rw [Heap.tocEntry, Heap.tocEntryDom]
        cases hs : (h.get c).primaryTag.sec with
        | none => exact .tmplErr
        | some j =>
          dsimp only
          refine RSim.bind RSim.same fun u u' hu => ?_
          subst hu
          refine RSim.bind RSim.same fun k k' hk => ?_
          subst hk
          cases hd : stripAux (h.get c).title with
          | none => exact .tmplErr
          | some d =>
            dsimp only
            refine RSim.bind (A d (strip_all H.strip _ d hd (H.title c))) fun title titleD htitle => ?_
            refine RSim.map (ih c) fun below belowD hbelow => ?_
            have ha := Reads.link u (((Reads.escText k).append (Reads.ws (s := q%" ") rfl)).append htitle)
            have hl := (elem_of (((((Reads.ws (s := q%"\n      ") rfl).append ha).append
              (Reads.ws (s := q%"\n\n      ") rfl)).append hbelow).append (Reads.ws (s := q%"\n    ") rfl)) :
              Reads (q%"<li>" ++ _ ++ q%"</li>") [.elem q%"li" [] _])
            have := ((Reads.ws (s := q%"\n    ") rfl).append hl).append (Reads.ws (s := q%"\n  ") rfl)
            simpa [arrives] using this
      · have hu := (elem_of (((Reads.ws (s := q%"\n  ") rfl).append hts.flatten).append (Reads.ws (s := q%"\n  ") rfl)) :
          Reads (q%"<ul>" ++ _ ++ q%"</ul>") [.elem q%"ul" [] _])
        have hn := (elem_of (((Reads.ws (s := q%"\n  ") rfl).append hu).append (Reads.ws (s := q%"\n") rfl)) :
          Reads (q%"<nav>" ++ _ ++ q%"</nav>") [.elem q%"nav" [] _])
        have := ((Reads.ws (s := q%"\n") rfl).append hn).append (Reads.ws (s := q%"\n") rfl)
        simpa using this

/-- Rendered text is read as the rendered tree. -/
theorem heap_sim {ok : Content → Bool} {S : Site} {h : Heap} (H : ShownOk ok S h) {raw : Content → Res (List Dom)}
    (hraw : ∀ n st b c ps, st = q%"raw-html" → (Content.styled st b c ps).all ok = true →
      RSim Reads (h.text S.brokenOk n c) (raw c)) (n : Nat) : Agree ok (h.html S n) (h.dom S raw n) := by
  induction n with
  | zero =>
    intro c hc
    rw [Heap.html, Heap.dom]
    refine html_sim (ok := ok) ⟨?_, ?_, ?_, ?_, ?_⟩ c hc
    all_goals intros; exact trivial
  | succ n ih =>
    intro c hc
    rw [Heap.html, Heap.dom]
    refine html_sim ⟨?_, ?_, ?_, ?_, ?_⟩ c hc
    · intro s t c o l h'; exact ref_sim H ih n s t c o l h'
    · intro i; exact sect_sim H ih n i
    · intro i; exact toc_sim H ih n i
    · intro b i hb
      dsimp only
      cases hf : S.force i with
      | none => exact .tmplErr
      | some d => exact ih d (H.force b i d hb hf)
    · intro st b c ps hs h'; exact hraw n st b c ps hs h'

end Booklit
