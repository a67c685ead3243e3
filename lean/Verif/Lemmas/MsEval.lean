import Verif.Lemmas.MsSource
import Verif.Lemmas.ProseL
import Verif.Lemmas.InvokeL
import Verif.Lemmas.CallsL

/-!
Evaluation of manuscripts: the contents they become.
-/

namespace Booklit.Ms

open Booklit Booklit.Src

variable {W : World}

/-! ### The contents -/

mutual
/-- The contents a span becomes in section `i`. -/
inductive SpanIs (i : Nat) : Span → List Content → Prop
  | text {ss : List Str} : ss ≠ [] → SpanIs i (.text ss.flatten) (ss.map .str)
  | code {ss : List Str} : ss ≠ [] → SpanIs i (.code ss.flatten) [.styled q%"verbatim" false (oneBody (ss.map .str)) []]
  | styled {f : Face} {ss : List Span} {cs : List Content} : SpansIs i ss cs → cs ≠ [] →
      SpanIs i (.styled f ss) [.styled f.fn false (oneBody cs) []]
  | link {ss : List Span} {url : Str} {cs : List Content} : SpansIs i ss cs → cs ≠ [] → SpanIs i (.link ss url) [.link (oneBody cs) url]
  | ref {name : Str} {l : Location} : SpanIs i (.ref name) [.ref i name .nil false l]
  | see {name : Str} {l : Location} {ss : List Span} {cs : List Content} : fullSpans ss → SpansIs i ss cs → cs ≠ [] →
      SpanIs i (.see name ss) [.ref i name (oneBody cs) false l]
  | image {path alt : Str} : SpanIs i (.image path alt) [.image path alt]
  | target {name : Str} {title : Option Str} {ss : List Str} {l : Location} : name ≠ [] → ss ≠ [] → ss.flatten = title.getD name →
      SpanIs i (.target name title) [.target name l (oneBody (ss.map .str)) .nil]
  | aux {ss : List Span} {cs : List Content} : SpansIs i ss cs → cs ≠ [] → SpanIs i (.aux ss) [.aux (oneBody cs)]
inductive SpansIs (i : Nat) : List Span → List Content → Prop
  | nil : SpansIs i [] []
  | cons {s : Span} {ss : List Span} {c cs : List Content} : SpanIs i s c → SpansIs i ss cs → SpansIs i (s :: ss) (c ++ cs)
end

/-- Lines of running text. -/
inductive LinesIs (i : Nat) : List (List Span) → List Content → Prop
  | nil : LinesIs i [] []
  | cons {l : List Span} {ls : List (List Span)} {cs ds : List Content} : SpansIs i l cs → cs ≠ [] → LinesIs i ls ds →
      LinesIs i (l :: ls) (oneBody cs :: ds)

/-- Rows of cells. -/
inductive GridIs (i : Nat) : List (List (List Span)) → List (List Content) → Prop
  | nil : GridIs i [] []
  | cons {r : List (List Span)} {rs : List (List (List Span))} {cs : List Content} {css : List (List Content)} : LinesIs i r cs →
      GridIs i rs css → GridIs i (r :: rs) (cs :: css)

/-- Definitions. -/
inductive PairsIs (i : Nat) : List (List Span × List Span) → List (Content × Content) → Prop
  | nil : PairsIs i [] []
  | cons {a b : List Span} {ds : List (List Span × List Span)} {cs es : List Content} {prs : List (Content × Content)} : SpansIs i a cs →
      cs ≠ [] → SpansIs i b es → es ≠ [] → PairsIs i ds prs → PairsIs i ((a, b) :: ds) ((oneBody cs, oneBody es) :: prs)

/-- Lines of code. -/
inductive RowsIs : List Str → List Content → Prop
  | nil : RowsIs [] []
  | cons {ss : List Str} {ts : List Str} {cs : List Content} : ss ≠ [] → RowsIs ts cs →
      RowsIs (ss.flatten :: ts) (oneBody (ss.map .str) :: cs)

mutual
inductive BlkIs (i : Nat) : Blk → Content → Prop
  | para {ls : List (List Span)} {cs : List Content} : LinesIs i ls cs → BlkIs i (.para ls) (.para cs)
  | code {b : Block} {cs : List Content} : RowsIs b.dedented cs → BlkIs i (.code b) (.styled q%"verbatim" false (.pre cs) [])
  | list {o : Bool} {items : List (List Span)} {cs : List Content} : LinesIs i items cs → BlkIs i (.list o items) (.list cs o)
  | table {rows : List (List (List Span))} {css : List (List Content)} : GridIs i rows css → BlkIs i (.table rows) (.table css)
  | defs {ds : List (List Span × List Span)} {prs : List (Content × Content)} : PairsIs i ds prs → BlkIs i (.defs ds) (.defs prs)
  | box {a : Bool} {bs : List Blk} {cs : List Content} : BlksIs i bs cs → cs ≠ [] →
      BlkIs i (.box a bs) (.styled (if a then q%"aside" else q%"inset") false (oneBody cs) [])
  | toc : BlkIs i .toc (.toc i)
inductive BlksIs (i : Nat) : List Blk → List Content → Prop
  | nil : BlksIs i [] []
  | cons {b : Blk} {bs : List Blk} {c : Content} {cs : List Content} : BlkIs i b c → BlksIs i bs cs → BlksIs i (b :: bs) (c :: cs)
end

/-- Contents that stay on their own when others are appended. -/
def isItem : Content → Bool
  | .nil => false
  | .seq _ => false
  | _ => true

def Items (cs : List Content) : Prop := ∀ c ∈ cs, isItem c = true

theorem Items.append {a b : List Content} (ha : Items a) (hb : Items b) : Items (a ++ b) := by
  intro c hc
  rcases List.mem_append.1 hc with h | h
  · exact ha c h
  · exact hb c h

theorem items_strs (ss : List Str) : Items (ss.map .str) := by
  intro c hc
  obtain ⟨x, _, rfl⟩ := List.mem_map.1 hc
  rfl

theorem append_one {cs : List Content} {c : Content} (hcs : Items cs) (hc : isItem c = true) :
    append (oneBody cs) [c] = oneBody (cs ++ [c]) := by
  have hn : c.isNil = false := by cases c <;> first | rfl | cases hc
  match cs with
  | [] => simp [oneBody, append, hn]
  | [d] =>
    have := hcs d (by simp)
    show append d [c] = .seq [d, c]
    cases d <;> first | (cases this; done) | (simp [append, hn]; done)
  | d :: e :: r => simp [oneBody, append, hn]

theorem oneBody_notNil {cs : List Content} (h : Items cs) (hn : cs ≠ []) : (oneBody cs).isNil = false := by
  match cs, hn with
  | [c], _ =>
    have := h c (by simp)
    show c.isNil = false
    cases c <;> first | rfl | cases this
  | a :: b :: r, _ => rfl

mutual
theorem SpanIs.items {i : Nat} : ∀ {s : Span} {cs : List Content}, SpanIs i s cs → Items cs
  | _, _, .text _ => items_strs _
  | _, _, .code _ => by intro c hc; rw [List.mem_singleton.1 hc]; rfl
  | _, _, .styled _ _ => by intro c hc; rw [List.mem_singleton.1 hc]; rfl
  | _, _, .link _ _ => by intro c hc; rw [List.mem_singleton.1 hc]; rfl
  | _, _, .ref => by intro c hc; rw [List.mem_singleton.1 hc]; rfl
  | _, _, .see _ _ _ => by intro c hc; rw [List.mem_singleton.1 hc]; rfl
  | _, _, .image => by intro c hc; rw [List.mem_singleton.1 hc]; rfl
  | _, _, .target _ _ _ => by intro c hc; rw [List.mem_singleton.1 hc]; rfl
  | _, _, .aux _ _ => by intro c hc; rw [List.mem_singleton.1 hc]; rfl
theorem SpansIs.items {i : Nat} : ∀ {ss : List Span} {cs : List Content}, SpansIs i ss cs → Items cs
  | _, _, .nil => by intro c hc; cases hc
  | _, _, .cons h1 h2 => h1.items.append h2.items
end

theorem SpanIs.ne {i : Nat} {s : Span} {cs : List Content} (h : SpanIs i s cs) : cs ≠ [] := by
  cases h with
  | text h => simpa using h
  | _ => simp

theorem SpansIs.ne {i : Nat} {ss : List Span} {cs : List Content} (h : SpansIs i ss cs) (hs : ss ≠ []) : cs ≠ [] := by
  cases h with
  | nil => exact absurd rfl hs
  | cons h1 _ => simp [h1.ne]

theorem BlkIs.item {i : Nat} {b : Blk} {c : Content} (h : BlkIs i b c) : isItem c = true := by
  cases h <;> rfl

theorem BlksIs.items {i : Nat} {bs : List Blk} {cs : List Content} (h : BlksIs i bs cs) : Items cs := by
  induction bs generalizing cs with
  | nil => cases h; intro c hc; cases hc
  | cons b bs ih =>
    cases h with
    | cons h1 h2 =>
      intro c hc
      rcases List.mem_cons.1 hc with rfl | hc
      · exact h1.item
      · exact ih h2 c hc

theorem BlksIs.ne {i : Nat} {bs : List Blk} {cs : List Content} (h : BlksIs i bs cs) (hs : bs ≠ []) : cs ≠ [] := by
  cases h with
  | nil => exact absurd rfl hs
  | cons _ _ => simp

theorem isFlow_strs (ss : List Str) : isFlowSeq (ss.map .str) = some true := by
  induction ss with
  | nil => rfl
  | cons s ss ih => rw [List.map_cons, isFlowSeq]; exact ih

theorem isFlow_oneBody {cs : List Content} (hn : cs ≠ []) (h : isFlowSeq cs = some true) : isFlow (oneBody cs) = some true := by
  match cs, hn with
  | [c], _ =>
    rw [isFlowSeq] at h
    show isFlow c = _
    cases hc : isFlow c with
    | none => rw [hc] at h; cases h
    | some b =>
      cases b with
      | true => rfl
      | false => rw [hc] at h; cases h
  | a :: b :: r, _ => show isFlow (.seq _) = _; rw [isFlow]; exact h

theorem isFlowSeq_app {a b : List Content} (ha : isFlowSeq a = some true) (hb : isFlowSeq b = some true) :
    isFlowSeq (a ++ b) = some true := by
  induction a with
  | nil => exact hb
  | cons c a ih =>
    rw [isFlowSeq] at ha
    rw [List.cons_append, isFlowSeq]
    cases hc : isFlow c with
    | none => rw [hc] at ha; cases ha
    | some x =>
      rw [hc] at ha
      cases x with
      | true => exact ih ha
      | false => cases ha

mutual
theorem SpanIs.flow {i : Nat} : ∀ {s : Span} {cs : List Content}, SpanIs i s cs → isFlowSeq cs = some true
  | _, _, .text _ => isFlow_strs _
  | _, _, .code h => by simp [isFlowSeq, isFlow, isFlow_oneBody (by simpa using h) (isFlow_strs _)]
  | _, _, .styled h hn => by simp [isFlowSeq, isFlow, isFlow_oneBody hn h.flow]
  | _, _, .link h hn => by simp [isFlowSeq, isFlow, isFlow_oneBody hn h.flow]
  | _, _, .ref => by simp [isFlowSeq, isFlow]
  | _, _, .see _ _ _ => by simp [isFlowSeq, isFlow]
  | _, _, .image => by simp [isFlowSeq, isFlow]
  | _, _, .target _ _ _ => by simp [isFlowSeq, isFlow]
  | _, _, .aux h hn => by simp [isFlowSeq, isFlow, isFlow_oneBody hn h.flow]
theorem SpansIs.flow {i : Nat} : ∀ {ss : List Span} {cs : List Content}, SpansIs i ss cs → isFlowSeq cs = some true
  | _, _, .nil => rfl
  | _, _, .cons h1 h2 => isFlowSeq_app h1.flow h2.flow
end

theorem BlkIs.noFlow {i : Nat} : ∀ {b : Blk} {c : Content}, BlkIs i b c → isFlow c = some false
  | _, _, .para _ => rfl
  | _, _, .code _ => rfl
  | _, _, .list _ => rfl
  | _, _, .table _ => rfl
  | _, _, .defs _ => rfl
  | _, _, .box h hn => by
    rw [isFlow]
    cases h with
    | nil => exact absurd rfl hn
    | @cons b bs c cs h1 h2 =>
      have := BlkIs.noFlow h1
      cases cs with
      | nil => simpa [oneBody] using this
      | cons d r => simp [oneBody, isFlow, isFlowSeq, this]
  | _, _, .toc => rfl

/-! ### States -/

/-- All is as manuscripts leave it: parents come before their children, and no section forbids pages. -/
def Calm (h : Heap) : Prop := ∀ j, (h.get j).preventSplit = false ∧ ∀ p, (h.get j).parent = some p → p < j

theorem Calm.filePath {h : Heap} (hc : Calm h) : ∀ (n i : Nat), i < n → ∃ p, h.filePath n i = some p
  | 0, i, hi => by omega
  | n + 1, i, hi => by
    rw [Heap.filePath]
    split
    · exact ⟨_, rfl⟩
    · cases hp : (h.get i).parent with
      | none => exact ⟨_, rfl⟩
      | some p => exact hc.filePath n p (by have := (hc i).2 p hp; omega)

theorem Calm.prevented {h : Heap} (hc : Calm h) : ∀ (n i : Nat), i < n → h.splitPrevented n i = some false
  | 0, i, hi => by omega
  | n + 1, i, hi => by
    rw [Heap.splitPrevented, (hc i).1]
    cases hp : (h.get i).parent with
    | none => rfl
    | some p => exact hc.prevented n p (by have := (hc i).2 p hp; omega)

/-- Ready to evaluate in section `i`. -/
structure Ready (s : St) (i : Nat) : Prop where
  calm : Calm s.heap
  base : (s.heap.get i).plugins.head? = some 0
  lt : i < s.heap.length

/-- Only the place of the last call in section `i` may have changed. -/
def Touch (i : Nat) (s s' : St) : Prop := s' = s ∨ ∃ l, s' = s.calling i l

theorem Heap_upd_upd (h : Heap) (i : Nat) (f g : Sec → Sec) : (h.upd i f).upd i g = h.upd i fun x => g (f x) := by
  simp only [Heap.upd]
  exact List.modify_modify_eq ..

theorem calling_calling (s : St) (i : Nat) (l l' : Location) : (s.calling i l).calling i l' = s.calling i l' := by
  simp only [St.calling, Heap_upd_upd]

theorem Touch.refl (i : Nat) (s : St) : Touch i s s := .inl rfl

theorem Touch.trans {i : Nat} {a b c : St} (h1 : Touch i a b) (h2 : Touch i b c) : Touch i a c := by
  rcases h2 with rfl | ⟨l, rfl⟩
  · exact h1
  · rcases h1 with rfl | ⟨l', rfl⟩
    · exact .inr ⟨l, rfl⟩
    · rw [calling_calling]
      exact .inr ⟨l, rfl⟩

theorem Touch.call (i : Nat) (s : St) (l : Location) : Touch i s (s.calling i l) := .inr ⟨l, rfl⟩

theorem Touch.field {α : Type} {i : Nat} {s s' : St} (h : Touch i s s') (g : Sec → α)
    (hg : ∀ (x : Sec) l, g { x with invokeLoc := l } = g x) (j : Nat) : g (s'.heap.get j) = g (s.heap.get j) := by
  rcases h with rfl | ⟨l, rfl⟩
  · rfl
  · exact Heap.get_field _ _ _ _ g fun x => hg x l

theorem Touch.length {i : Nat} {s s' : St} (h : Touch i s s') : s'.heap.length = s.heap.length := by
  rcases h with rfl | ⟨l, rfl⟩
  · rfl
  · exact St.length_calling ..

theorem Touch.ready {i : Nat} {s s' : St} (h : Touch i s s') (r : Ready s i) : Ready s' i := by
  refine ⟨fun j => ?_, ?_, by rw [h.length]; exact r.lt⟩
  · rw [h.field Sec.preventSplit (fun _ _ => rfl), h.field Sec.parent (fun _ _ => rfl)]
    exact r.calm j
  · rw [h.field Sec.plugins (fun _ _ => rfl)]
    exact r.base

/-! ### Calls -/

theorem invoke_base {k : Nat} {inc : Inc} {fn : Str} {args : List Node} {loc : Location} {i : Nat} {r : Content} {s s1 s2 : St}
    {b : Base} {vals : List ArgV} {ret : Ret} (rd : Ready s i) (hm : baseMethods.lookup (methodName fn) = some b)
    (ha : arityOk b.sig args.length = true)
    (hv : convertAll W k i b.sig.1 b.sig.2 (evalArgs W k inc args) (s.calling i loc) = (.ok vals, s1))
    (hz : vals.any ArgV.isZero = false) (hcall : callBase W k inc i b vals s1 = (.ok ret, s2)) :
    ∃ path, evalNode W k inc (.invoke fn args loc) i r s = finish fn path loc r ret s2 := by
  obtain ⟨path, hp⟩ := rd.calm.filePath (s.heap.length + 1) i (by have := rd.lt; omega)
  refine ⟨path, ?_⟩
  rw [invoke_run, hp, findMethod_head hm rd.base]
  simp only [Method.sig, ha, if_true, M.bind_run, M.bind, hv, callMethod, hz, Bool.false_eq_true, if_false, hcall]

/-- The nodes of text. -/
theorem wordsOf_tree {l : Str} (h : l ≠ []) : ∃ ss : List Str, treeWords (wordsOf [] l) = ss.map .str ∧ ss.flatten = l ∧ ss ≠ [] := by
  have h1 := wordsOf_strs l []
  have h2 := wordsOf_plain l []
  generalize treeWords (wordsOf [] l) = ns at h1 h2
  have : ∃ ss : List Str, ns = ss.map .str := by
    clear h2
    induction ns with
    | nil => exact ⟨[], rfl⟩
    | cons n ns ih =>
      obtain ⟨u, rfl⟩ := h1 n (by simp)
      obtain ⟨ss, rfl⟩ := ih fun m hm => h1 m (by simp [hm])
      exact ⟨u :: ss, rfl⟩
  obtain ⟨ss, rfl⟩ := this
  rw [plainL_strs, List.nil_append] at h2
  refine ⟨ss, rfl, h2, ?_⟩
  rintro rfl
  exact h h2.symm

theorem evalStrs {k : Nat} {inc : Inc} {i : Nat} {s : St} : ∀ (ss : List Str) {cs : List Content}, Items cs →
    evalSeq W k inc (ss.map .str) i (oneBody cs) s = (.ok (oneBody (cs ++ ss.map .str)), s)
  | [], cs, _ => by simp only [List.map_nil, List.append_nil]; rfl
  | x :: ss, cs, h => by
    rw [List.map_cons, evalSeq, evalNode]
    simp only [M.bind_run, M.bind, M.pure_run]
    rw [append_one h rfl, evalStrs ss (h.append fun c hc => by rw [List.mem_singleton.1 hc]; rfl)]
    simp

theorem lit_strs (ss : List Str) : Lit (oneBody (ss.map .str)) ss.flatten := by
  match ss with
  | [] => exact .inl ⟨rfl, rfl⟩
  | [x] => exact .inr (.inl (by simp [oneBody]))
  | x :: y :: r => exact .inr (.inr ⟨x :: y :: r, rfl, rfl⟩)

theorem strs_text {h : Heap} {b : Bool} {k : Nat} {ss : List Str} (hs : ss ≠ []) :
    h.text b k (oneBody (ss.map .str)) = .ok ss.flatten := by
  cases k <;> exact (lit_strs ss).text_eq (oneBody_notNil (items_strs ss) (by simpa using hs)) _ _

theorem treePieces_words (ws : List Word) : treePieces (ws.map .word) = treeWords ws := by
  induction ws with
  | nil => rfl
  | cons w ws ih => simp [treePieces, Piece.tree, treeWords, ih]

theorem argOf_tree {ws : List Word} (h : ws ≠ []) : (argOf ws).tree = .seq (treeWords ws) := by
  cases ws with
  | nil => exact absurd rfl h
  | cons w ws => simp [argOf, Arg.tree, treePieces_words, treeWords]

theorem arg_seq {a : Node} {ws : List Word} (hn : ws ≠ []) (h : a.erase = (argOf ws).tree) : ∃ ns, a = .seq ns ∧ eraseL ns = treeWords ws := by
  rw [argOf_tree hn] at h
  exact erase_seq h

/-- Converting an argument that is text. -/
theorem convert_text {k : Nat} {inc : Inc} {i : Nat} {a : Node} {l : Str} (hl : l ≠ []) (h : a.erase = (argOf (wordsOf [] l)).tree) (s : St) :
    convert W k i .string (a, evalNode W k inc a) s = (.ok (.str l), s) := by
  obtain ⟨ns, rfl, hns⟩ := arg_seq (wordsOf_ne l [] hl) h
  have := eraseL_strs' hns (wordsOf_strs l [])
  obtain ⟨ss, e1, e2, e3⟩ := wordsOf_tree hl
  rw [e1] at this
  subst this
  have := evalStrs (W := W) (k := k) (inc := inc) (i := i) (s := s) ss (cs := []) (by intro c hc; cases hc)
  rw [List.nil_append] at this
  simp only [convert, M.bind_run, M.bind, evalNode, M.get, M.lift, M.pure_run]
  rw [show (Content.nil) = oneBody [] from rfl, this]
  simp only [strs_text e3, e2]

/-- Converting an argument that is text into content. -/
theorem convert_title {k : Nat} {inc : Inc} {i : Nat} {a : Node} {l : Str} (hl : l ≠ []) (h : a.erase = (argOf (wordsOf [] l)).tree) (s : St) :
    ∃ ss, ss ≠ [] ∧ ss.flatten = l ∧
      convert W k i .content (a, evalNode W k inc a) s = (.ok (.content (oneBody (ss.map .str))), s) := by
  obtain ⟨ns, rfl, hns⟩ := arg_seq (wordsOf_ne l [] hl) h
  have := eraseL_strs' hns (wordsOf_strs l [])
  obtain ⟨ss, e1, e2, e3⟩ := wordsOf_tree hl
  rw [e1] at this
  subst this
  have := evalStrs (W := W) (k := k) (inc := inc) (i := i) (s := s) ss (cs := []) (by intro c hc; cases hc)
  rw [List.nil_append] at this
  refine ⟨ss, e3, e2, ?_⟩
  simp only [convert, M.bind_run, M.bind, evalNode, M.pure_run]
  rw [show (Content.nil) = oneBody [] from rfl, this]
  simp only [oneBody_notNil (items_strs ss) (by simpa using e3)]
  rfl

theorem finish_content {fn path : Str} {loc : Location} {r c : Content} {s : St} (h : c.isNil = false) :
    finish fn path loc r (.content c) s = (.ok (append r [c]), s) := by
  rw [finish, h]
  rfl

theorem finish_both {fn path : Str} {loc : Location} {r c : Content} {s : St} (h : c.isNil = false) :
    finish fn path loc r (.both c none) s = (.ok (append r [c]), s) := by
  rw [finish, h]
  rfl

theorem convert_content {k i : Nat} {inc : Inc} {a : Node} {c : Content} {s s1 : St} (h : evalNode W k inc a i .nil s = (.ok c, s1))
    (hn : c.isNil = false) : convert W k i .content (a, evalNode W k inc a) s = (.ok (.content c), s1) := by
  simp only [convert, M.bind_run, M.bind, h, hn, M.pure_run]
  rfl

theorem styleMethod (f : Face) : baseMethods.lookup (methodName f.fn) = some (.style f.fn) := by
  cases f <;> decide

/-- A call of a style with one argument, once the argument has been evaluated. -/
theorem style_run {k : Nat} {inc : Inc} {fn st : Str} {a : Node} {loc : Location} {i : Nat} {cs0 cs : List Content} {s s1 : St}
    (rd : Ready s i) (hm : baseMethods.lookup (methodName fn) = some (.style st)) (h0 : Items cs0) {c : Content} (hn : c.isNil = false)
    (ha : evalNode W k inc a i .nil (s.calling i loc) = (.ok c, s1)) (e : cs = [.styled st false c []]) :
    evalNode W k inc (.invoke fn [a] loc) i (oneBody cs0) s = (.ok (oneBody (cs0 ++ cs)), s1) := by
  subst e
  obtain ⟨path, e⟩ := invoke_base (W := W) (k := k) (inc := inc) (fn := fn) (args := [a]) (loc := loc) (r := oneBody cs0) rd hm rfl
    (vals := [.content c]) (s1 := s1) (by
      simp only [Base.sig, evalArgs, convertAll, convert, M.bind_run, M.bind, ha, hn, M.pure_run]
      rfl) rfl (ret := .content (.styled st false c [])) (s2 := s1) rfl
  rw [e, finish_content rfl, append_one h0 rfl]

mutual
theorem evalSpan {k : Nat} {inc : Inc} {i : Nat} : ∀ {x : Span}, x.ok → ∀ {ns : List Node}, eraseL ns = treeWords x.words →
    ∀ {s : St} {cs0 : List Content}, Ready s i → Items cs0 →
    ∃ cs s', evalSeq W k inc ns i (oneBody cs0) s = (.ok (oneBody (cs0 ++ cs)), s') ∧ Touch i s s' ∧ SpanIs i x cs
  | .text l, h, ns, e, s, cs0, rd, h0 => by
    rw [Span.words] at e
    have := eraseL_strs' e (wordsOf_strs l [])
    obtain ⟨ss, e1, e2, e3⟩ := wordsOf_tree h.1
    rw [e1] at this
    subst this
    exact ⟨_, s, evalStrs ss h0, .refl i s, by rw [← e2]; exact .text e3⟩
  | .code l, h, ns, e, s, cs0, rd, h0 => by
    simp only [Span.words, treeWords, Word.tree, Vl.tree, treeArgs, Arg.tree] at e
    rw [eraseL_map, List.map_eq_singleton_iff] at e
    obtain ⟨m, rfl, e⟩ := e
    replace e := erase_invoke e
    obtain ⟨bs, loc, rfl, e⟩ := e
    rw [eraseL_map, List.map_eq_singleton_iff] at e
    obtain ⟨a, rfl, e⟩ := e
    replace e := erase_seq e
    obtain ⟨ms, rfl, e⟩ := e
    have := eraseL_strs' e (allStr_map _)
    subst this
    have hp : pieces l ≠ [] := by
      intro hp
      have := pieces_flatten l
      rw [hp] at this
      exact h.1.1 this.symm
    have he := evalStrs (W := W) (k := k) (inc := inc) (i := i) (s := s.calling i loc) (pieces l) (cs := []) (by intro c hc; cases hc)
    rw [List.nil_append] at he
    refine ⟨_, s.calling i loc, ?_, .call i s loc, by rw [← pieces_flatten l]; exact .code hp⟩
    simp only [evalSeq, M.bind_run, M.bind]
    rw [style_run (st := q%"verbatim") (c := oneBody ((pieces l).map .str)) rd (by decide) h0
      (oneBody_notNil (items_strs _) (by simpa using hp)) (by rw [evalNode]; exact he) rfl]
    simp only [M.pure_run, pieces_flatten]
  | .styled f ss, h, ns, e, s, cs0, rd, h0 => by
    simp only [Span.words, treeWords, Word.tree, Vl.tree, treeArgs] at e
    rw [eraseL_map, List.map_eq_singleton_iff] at e
    obtain ⟨m, rfl, e⟩ := e
    replace e := erase_invoke e
    obtain ⟨bs, loc, rfl, e⟩ := e
    rw [eraseL_map, List.map_eq_singleton_iff] at e
    obtain ⟨a, rfl, e⟩ := e
    replace e := arg_seq (words_ne h.1 h.2.2) e
    obtain ⟨ms, rfl, e⟩ := e
    obtain ⟨cs, s1, h1, h2, h3⟩ := evalSpans (k := k) (inc := inc) (i := i) h.2.2 e (s := s.calling i loc) (cs0 := [])
      ((Touch.call i s loc).ready rd) (by intro c hc; cases hc)
    rw [List.nil_append] at h1
    have hne := h3.ne h.1
    refine ⟨_, s1, ?_, (Touch.call i s loc).trans h2, .styled h3 hne⟩
    simp only [evalSeq, M.bind_run, M.bind]
    rw [style_run (st := f.fn) (c := oneBody cs) rd (styleMethod f) h0 (oneBody_notNil h3.items hne) (by rw [evalNode]; exact h1) rfl]
    rfl
  | .link ss url, h, ns, e, s, cs0, rd, h0 => by
    simp only [Span.words, treeWords, Word.tree, Vl.tree, treeArgs] at e
    rw [eraseL_map, List.map_eq_singleton_iff] at e
    obtain ⟨m, rfl, e⟩ := e
    replace e := erase_invoke e
    obtain ⟨bs, loc, rfl, e⟩ := e
    rw [eraseL_map, List.map_eq_cons_iff] at e
    obtain ⟨a, as, rfl, e, e'⟩ := e
    rw [List.map_eq_singleton_iff] at e'
    obtain ⟨a', rfl, e'⟩ := e'
    replace e := arg_seq (words_ne h.1 h.2.2.1) e
    obtain ⟨ms, rfl, e⟩ := e
    obtain ⟨cs, s1, h1, h2, h3⟩ := evalSpans (k := k) (inc := inc) (i := i) h.2.2.1 e (s := s.calling i loc) (cs0 := [])
      ((Touch.call i s loc).ready rd) (by intro c hc; cases hc)
    rw [List.nil_append] at h1
    have hne := h3.ne h.1
    refine ⟨_, s1, ?_, (Touch.call i s loc).trans h2, .link (url := url) h3 hne⟩
    obtain ⟨path, ee⟩ := invoke_base (W := W) (k := k) (inc := inc) (fn := q%"link") (args := [.seq ms, a']) (loc := loc) (r := oneBody cs0) rd
      (b := .link) (by decide) rfl (vals := [.content (oneBody cs), .str url]) (s1 := s1) (by
        have h1' : evalNode W k inc (.seq ms) i .nil (s.calling i loc) = (.ok (oneBody cs), s1) := by rw [evalNode]; exact h1
        simp only [Base.sig, evalArgs, convertAll, M.bind_run, M.bind, M.pure_run, convert_content h1' (oneBody_notNil h3.items hne),
          convert_text h.2.2.2.1 e']) rfl (ret := .content (.link (oneBody cs) url)) (s2 := s1) rfl
    simp only [evalSeq, M.bind_run, M.bind]
    rw [ee, finish_content rfl, append_one h0 rfl]
    rfl
  | .ref name, h, ns, e, s, cs0, rd, h0 => by
    simp only [Span.words, treeWords, Word.tree, Vl.tree, treeArgs] at e
    rw [eraseL_map, List.map_eq_singleton_iff] at e
    obtain ⟨m, rfl, e⟩ := e
    replace e := erase_invoke e
    obtain ⟨bs, loc, rfl, e⟩ := e
    rw [eraseL_map, List.map_eq_singleton_iff] at e
    obtain ⟨a, rfl, e⟩ := e
    refine ⟨_, s.calling i loc, ?_, .call i s loc, .ref (l := ((s.calling i loc).heap.get i).invokeLoc)⟩
    obtain ⟨path, ee⟩ := invoke_base (W := W) (k := k) (inc := inc) (fn := q%"reference") (args := [a]) (loc := loc) (r := oneBody cs0) rd
      (b := .reference) (by decide) rfl (vals := [.str name]) (s1 := s.calling i loc) (by
        simp only [Base.sig, evalArgs, convertAll, M.bind_run, M.bind, convert_text h.1 e, M.pure_run]) rfl
      (ret := .content (.ref i name .nil false ((s.calling i loc).heap.get i).invokeLoc)) (s2 := s.calling i loc) rfl
    simp only [evalSeq, M.bind_run, M.bind]
    rw [ee, finish_content rfl, append_one h0 rfl]
    rfl
  | .see name ss, h, ns, e, s, cs0, rd, h0 => by
    simp only [Span.words, treeWords, Word.tree, Vl.tree, treeArgs] at e
    rw [eraseL_map, List.map_eq_singleton_iff] at e
    obtain ⟨m, rfl, e⟩ := e
    replace e := erase_invoke e
    obtain ⟨bs, loc, rfl, e⟩ := e
    rw [eraseL_map, List.map_eq_cons_iff] at e
    obtain ⟨a, as, rfl, e, e'⟩ := e
    rw [List.map_eq_singleton_iff] at e'
    obtain ⟨a', rfl, e'⟩ := e'
    replace e' := arg_seq (words_ne h.2.1 h.2.2.2.1) e'
    obtain ⟨ms, rfl, e'⟩ := e'
    obtain ⟨cs, s1, h1, h2, h3⟩ := evalSpans (k := k) (inc := inc) (i := i) h.2.2.2.1 e' (s := s.calling i loc) (cs0 := [])
      ((Touch.call i s loc).ready rd) (by intro c hc; cases hc)
    rw [List.nil_append] at h1
    have hne := h3.ne h.2.1
    refine ⟨_, s1, ?_, (Touch.call i s loc).trans h2, .see (name := name) (l := (s1.heap.get i).invokeLoc) h.2.2.2.2 h3 hne⟩
    obtain ⟨path, ee⟩ := invoke_base (W := W) (k := k) (inc := inc) (fn := q%"reference") (args := [a, .seq ms]) (loc := loc) (r := oneBody cs0) rd
      (b := .reference) (by decide) rfl (vals := [.str name, .content (oneBody cs)]) (s1 := s1) (by
        have h1' : evalNode W k inc (.seq ms) i .nil (s.calling i loc) = (.ok (oneBody cs), s1) := by rw [evalNode]; exact h1
        simp only [Base.sig, evalArgs, convertAll, M.bind_run, M.bind, M.pure_run, convert_content h1' (oneBody_notNil h3.items hne),
          convert_text h.1.1 e]) rfl (ret := .content (.ref i name (oneBody cs) false (s1.heap.get i).invokeLoc)) (s2 := s1) rfl
    simp only [evalSeq, M.bind_run, M.bind]
    rw [ee, finish_content rfl, append_one h0 rfl]
    rfl
  | .image path alt, h, ns, e, s, cs0, rd, h0 => by
    simp only [Span.words, treeWords, Word.tree, Vl.tree, treeArgs] at e
    rw [eraseL_map, List.map_eq_singleton_iff] at e
    obtain ⟨m, rfl, e⟩ := e
    replace e := erase_invoke e
    obtain ⟨bs, loc, rfl, e⟩ := e
    rw [eraseL_map, List.map_eq_cons_iff] at e
    obtain ⟨a, as, rfl, e, e'⟩ := e
    rw [List.map_eq_singleton_iff] at e'
    obtain ⟨a', rfl, e'⟩ := e'
    refine ⟨_, s.calling i loc, ?_, .call i s loc, .image (path := path) (alt := alt)⟩
    obtain ⟨_, ee⟩ := invoke_base (W := W) (k := k) (inc := inc) (fn := q%"image") (args := [a, a']) (loc := loc) (r := oneBody cs0) rd
      (b := .image) (by decide) rfl (vals := [.str path, .str alt]) (s1 := s.calling i loc) (by
        simp only [Base.sig, evalArgs, convertAll, M.bind_run, M.bind, M.pure_run, convert_text h.1.1 e, convert_text h.2.1 e']) rfl
      (ret := .content (.image path alt)) (s2 := s.calling i loc) rfl
    simp only [evalSeq, M.bind_run, M.bind]
    rw [ee, finish_content rfl, append_one h0 rfl]
    rfl
  | .target name none, h, ns, e, s, cs0, rd, h0 => by
    simp only [Span.words, treeWords, Word.tree, Vl.tree, treeArgs] at e
    rw [eraseL_map, List.map_eq_singleton_iff] at e
    obtain ⟨m, rfl, e⟩ := e
    replace e := erase_invoke e
    obtain ⟨bs, loc, rfl, e⟩ := e
    rw [eraseL_map, List.map_eq_singleton_iff] at e
    obtain ⟨a, rfl, e⟩ := e
    refine ⟨_, s.calling i loc, ?_, .call i s loc, .target (ss := [name]) (l := ((s.calling i loc).heap.get i).invokeLoc) h.1.1 (by simp) (by simp)⟩
    obtain ⟨path, ee⟩ := invoke_base (W := W) (k := k) (inc := inc) (fn := q%"target") (args := [a]) (loc := loc) (r := oneBody cs0) rd
      (b := .target) (by decide) rfl (vals := [.str name]) (s1 := s.calling i loc) (by
        simp only [Base.sig, evalArgs, convertAll, M.bind_run, M.bind, convert_text h.1.1 e, M.pure_run]) rfl
      (ret := .content (.target name ((s.calling i loc).heap.get i).invokeLoc (.str name) .nil)) (s2 := s.calling i loc) rfl
    simp only [evalSeq, M.bind_run, M.bind]
    rw [ee, finish_content rfl, append_one h0 rfl]
    rfl
  | .target name (some title), h, ns, e, s, cs0, rd, h0 => by
    simp only [Span.words, treeWords, Word.tree, Vl.tree, treeArgs] at e
    rw [eraseL_map, List.map_eq_singleton_iff] at e
    obtain ⟨m, rfl, e⟩ := e
    replace e := erase_invoke e
    obtain ⟨bs, loc, rfl, e⟩ := e
    rw [eraseL_map, List.map_eq_cons_iff] at e
    obtain ⟨a, as, rfl, e, e'⟩ := e
    rw [List.map_eq_singleton_iff] at e'
    obtain ⟨a', rfl, e'⟩ := e'
    obtain ⟨ss, hs1, hs2, hs3⟩ := convert_title (W := W) (k := k) (inc := inc) (i := i) (h.2 title rfl).1 e' (s.calling i loc)
    refine ⟨_, s.calling i loc, ?_, .call i s loc, .target (ss := ss) (l := ((s.calling i loc).heap.get i).invokeLoc) h.1.1 hs1 hs2⟩
    obtain ⟨path, ee⟩ := invoke_base (W := W) (k := k) (inc := inc) (fn := q%"target") (args := [a, a']) (loc := loc) (r := oneBody cs0) rd
      (b := .target) (by decide) rfl (vals := [.str name, .content (oneBody (ss.map .str))]) (s1 := s.calling i loc) (by
        simp only [Base.sig, evalArgs, convertAll, M.bind_run, M.bind, M.pure_run, convert_text h.1.1 e, hs3]) rfl
      (ret := .content (.target name ((s.calling i loc).heap.get i).invokeLoc (oneBody (ss.map .str)) .nil)) (s2 := s.calling i loc) rfl
    simp only [evalSeq, M.bind_run, M.bind]
    rw [ee, finish_content rfl, append_one h0 rfl]
    rfl
  | .aux ss, h, ns, e, s, cs0, rd, h0 => by
    simp only [Span.words, treeWords, Word.tree, Vl.tree, treeArgs] at e
    rw [eraseL_map, List.map_eq_singleton_iff] at e
    obtain ⟨m, rfl, e⟩ := e
    replace e := erase_invoke e
    obtain ⟨bs, loc, rfl, e⟩ := e
    rw [eraseL_map, List.map_eq_singleton_iff] at e
    obtain ⟨a, rfl, e⟩ := e
    replace e := arg_seq (words_ne h.1 h.2.2) e
    obtain ⟨ms, rfl, e⟩ := e
    obtain ⟨cs, s1, h1, h2, h3⟩ := evalSpans (k := k) (inc := inc) (i := i) h.2.2 e (s := s.calling i loc) (cs0 := [])
      ((Touch.call i s loc).ready rd) (by intro c hc; cases hc)
    rw [List.nil_append] at h1
    have hne := h3.ne h.1
    refine ⟨_, s1, ?_, (Touch.call i s loc).trans h2, .aux h3 hne⟩
    obtain ⟨path, ee⟩ := invoke_base (W := W) (k := k) (inc := inc) (fn := q%"aux") (args := [.seq ms]) (loc := loc) (r := oneBody cs0) rd
      (b := .aux) (by decide) rfl (vals := [.content (oneBody cs)]) (s1 := s1) (by
        have h1' : evalNode W k inc (.seq ms) i .nil (s.calling i loc) = (.ok (oneBody cs), s1) := by rw [evalNode]; exact h1
        simp only [Base.sig, evalArgs, convertAll, M.bind_run, M.bind, M.pure_run, convert_content h1' (oneBody_notNil h3.items hne)]) rfl
      (ret := .content (.aux (oneBody cs))) (s2 := s1) rfl
    simp only [evalSeq, M.bind_run, M.bind]
    rw [ee, finish_content rfl, append_one h0 rfl]
    rfl
theorem evalSpans {k : Nat} {inc : Inc} {i : Nat} : ∀ {xs : List Span}, okSpans xs → ∀ {ns : List Node}, eraseL ns = treeWords (wordsSpans xs) →
    ∀ {s : St} {cs0 : List Content}, Ready s i → Items cs0 →
    ∃ cs s', evalSeq W k inc ns i (oneBody cs0) s = (.ok (oneBody (cs0 ++ cs)), s') ∧ Touch i s s' ∧ SpansIs i xs cs
  | [], _, ns, e, s, cs0, _, _ => by
    simp only [wordsSpans, treeWords] at e
    rw [eraseL_map, List.map_eq_nil_iff] at e
    subst e
    exact ⟨[], s, by rw [List.append_nil]; rfl, .refl i s, .nil⟩
  | x :: xs, h, ns, e, s, cs0, rd, h0 => by
    rw [wordsSpans, treeWords_app, eraseL_map, List.map_eq_append_iff] at e
    obtain ⟨ns1, ns2, rfl, e1, e2⟩ := e
    obtain ⟨cs1, s1, a1, a2, a3⟩ := evalSpan (k := k) (inc := inc) (i := i) h.1 (by rw [eraseL_map]; exact e1) rd h0
    obtain ⟨cs2, s2, b1, b2, b3⟩ := evalSpans (k := k) (inc := inc) (i := i) h.2 (by rw [eraseL_map]; exact e2) (a2.ready rd) (h0.append a3.items)
    refine ⟨cs1 ++ cs2, s2, ?_, a2.trans b2, .cons a3 b3⟩
    rw [evalSeq_append]
    simp only [M.bind_run, M.bind, a1, b1]
    rw [List.append_assoc]
end

/-! ### Blocks -/

theorem LinesIs.ne {i : Nat} {ls : List (List Span)} {cs : List Content} (h : LinesIs i ls cs) (hl : ls ≠ []) : cs ≠ [] := by
  cases h with
  | nil => exact absurd rfl hl
  | cons _ _ _ => simp

theorem evalLs {k : Nat} {inc : Inc} {i : Nat} : ∀ {ls : List (List Span)}, (∀ l ∈ ls, runOk l) → ∀ {nss : List (List Node)},
    eraseLL nss = ls.map (fun l => treeWords (wordsSpans l)) → ∀ {s : St}, Ready s i →
    ∃ cs s', evalLines W k inc nss i s = (.ok cs, s') ∧ Touch i s s' ∧ LinesIs i ls cs
  | [], _, nss, e, s, _ => by
    rw [eraseLL_map, List.map_nil, List.map_eq_nil_iff] at e
    subst e
    exact ⟨[], s, rfl, .refl i s, .nil⟩
  | l :: ls, h, nss, e, s, rd => by
    rw [eraseLL_map, List.map_cons, List.map_eq_cons_iff] at e
    obtain ⟨ns, nss, rfl, e1, e2⟩ := e
    obtain ⟨hl1, _, hl3⟩ := h l (by simp)
    obtain ⟨cs, s1, a1, a2, a3⟩ := evalSpans (W := W) (k := k) (inc := inc) (i := i) hl3 e1 (cs0 := []) rd (by intro c hc; cases hc)
    rw [List.nil_append] at a1
    obtain ⟨ds, s2, b1, b2, b3⟩ := evalLs (k := k) (inc := inc) (i := i) (ls := ls) (fun l hl => h l (by simp [hl]))
      (nss := nss) (by rw [eraseLL_map]; exact e2) (a2.ready rd)
    refine ⟨oneBody cs :: ds, s2, ?_, a2.trans b2, .cons a3 (a3.ne hl1) b3⟩
    have a1' : evalSeq W k inc ns i .nil s = (.ok (oneBody cs), s1) := a1
    simp only [evalLines, M.bind_run, M.bind, a1', b1, M.pure_run, oneBody_notNil a3.items (a3.ne hl1)]
    rfl

theorem evalItems {k : Nat} {inc : Inc} {i : Nat} : ∀ {ls : List (List Span)}, (∀ l ∈ ls, runOk l) → ∀ {as : List Node},
    eraseL as = treeArgs (argsOf ls) → ∀ {s : St}, Ready s i →
    ∃ cs s', convertAll W k i [] (some .content) (evalArgs W k inc as) s = (.ok (cs.map .content), s') ∧ Touch i s s' ∧ LinesIs i ls cs
  | [], _, as, e, s, _ => by
    rw [eraseL_map, argsOf, List.map_nil, treeArgs, List.map_eq_nil_iff] at e
    subst e
    exact ⟨[], s, rfl, .refl i s, .nil⟩
  | l :: ls, h, as, e, s, rd => by
    rw [eraseL_map, argsOf, List.map_cons, treeArgs, List.map_eq_cons_iff] at e
    obtain ⟨a, as, rfl, e1, e2⟩ := e
    obtain ⟨hl1, _, hl3⟩ := h l (by simp)
    replace e1 := arg_seq (words_ne hl1 hl3) e1
    obtain ⟨ns, rfl, e1⟩ := e1
    obtain ⟨cs, s1, a1, a2, a3⟩ := evalSpans (W := W) (k := k) (inc := inc) (i := i) hl3 e1 (cs0 := []) rd (by intro c hc; cases hc)
    rw [List.nil_append] at a1
    have a1' : evalNode W k inc (.seq ns) i .nil s = (.ok (oneBody cs), s1) := by rw [evalNode]; exact a1
    obtain ⟨ds, s2, b1, b2, b3⟩ := evalItems (k := k) (inc := inc) (i := i) (ls := ls) (fun l hl => h l (by simp [hl]))
      (as := as) (by rw [eraseL_map]; exact e2) (a2.ready rd)
    refine ⟨oneBody cs :: ds, s2, ?_, a2.trans b2, .cons a3 (a3.ne hl1) b3⟩
    simp only [evalArgs, convertAll, M.bind_run, M.bind, convert_content a1' (oneBody_notNil a3.items (a3.ne hl1)), b1, M.pure_run,
      List.map_cons]

theorem contentArgs_map (cs : List Content) : contentArgs (cs.map .content) = cs := by
  induction cs with
  | nil => rfl
  | cons c cs ih => rw [List.map_cons, contentArgs, ih]

theorem noZero_map (cs : List Content) : (cs.map ArgV.content).any ArgV.isZero = false := by
  induction cs with
  | nil => rfl
  | cons c cs ih => rw [List.map_cons, List.any_cons, ih]; rfl

/-! ### Tables and definitions -/

theorem convertAll_two {k i : Nat} (a b : Node × Ev) :
    convertAll W k i [.content, .content] none [a, b] = convertAll W k i [] (some .content) [a, b] := rfl

theorem evalArgs_length {k : Nat} {inc : Inc} (as : List Node) : (evalArgs W k inc as).length = as.length := by
  induction as with
  | nil => rfl
  | cons a as ih => rw [evalArgs, List.length_cons, ih, List.length_cons]

theorem treeArgs_length (as : List Arg) : (treeArgs as).length = as.length := by
  induction as with
  | nil => rfl
  | cons a as ih => rw [treeArgs, List.length_cons, ih, List.length_cons]

theorem LinesIs.length {i : Nat} {ls : List (List Span)} {cs : List Content} (h : LinesIs i ls cs) : cs.length = ls.length := by
  induction h with
  | nil => rfl
  | cons _ _ _ ih => rw [List.length_cons, ih, List.length_cons]

/-- A row of a table or a definition, as an argument. -/
theorem row_run {k : Nat} {inc : Inc} {i : Nat} {fn : Str} {b : Base} {r : List (List Span)} (hr : ∀ l ∈ r, runOk l)
    (hm : baseMethods.lookup (methodName fn) = some b) (hb : b = .tableRow ∨ (b = .definition ∧ r.length = 2)) {a : Node}
    (e : a.erase = (argOf [.mk (.call fn (argsOf r)) none]).tree) {s : St} (rd : Ready s i) :
    ∃ cs s', evalNode W k inc a i .nil s = (.ok (.list cs false), s') ∧ Touch i s s' ∧ LinesIs i r cs := by
  replace e := arg_seq (by simp) e
  obtain ⟨ns, rfl, e⟩ := e
  simp only [treeWords, Word.tree, Vl.tree] at e
  rw [eraseL_map, List.map_eq_singleton_iff] at e
  obtain ⟨m, rfl, e⟩ := e
  replace e := erase_invoke e
  obtain ⟨bs, loc, rfl, e⟩ := e
  obtain ⟨cs, s', h1, h2, h3⟩ := evalItems (W := W) (k := k) (inc := inc) (i := i) hr e (s := s.calling i loc) ((Touch.call i s loc).ready rd)
  refine ⟨cs, s', ?_, (Touch.call i s loc).trans h2, h3⟩
  have hl : bs.length = r.length := by
    have := congrArg List.length e
    rw [eraseL_map, List.length_map, treeArgs_length] at this
    simpa [argsOf] using this
  have hcall : arityOk b.sig bs.length = true ∧ convertAll W k i b.sig.1 b.sig.2 (evalArgs W k inc bs) (s.calling i loc) =
      (.ok (cs.map .content), s') ∧ callBase W k inc i b (cs.map .content) s' = (.ok (.content (.list cs false)), s') := by
    rcases hb with rfl | ⟨rfl, h2⟩
    · refine ⟨rfl, h1, ?_⟩
      rw [callBase, contentArgs_map]
      rfl
    · have hc := h3.length
      rw [h2] at hl hc
      refine ⟨by rw [hl]; rfl, ?_, ?_⟩
      · match bs, hl, h1 with
        | [x, y], _, h1 => exact h1
      · match cs, hc with
        | [x, y], _ => rfl
  obtain ⟨path, ee⟩ := invoke_base (W := W) (k := k) (inc := inc) (fn := fn) (args := bs) (loc := loc) (r := .nil) rd hm hcall.1 hcall.2.1
    (noZero_map cs) hcall.2.2
  rw [evalNode, evalSeq]
  simp only [M.bind_run, M.bind]
  rw [ee, finish_content rfl]
  rfl

theorem evalGrid {k : Nat} {inc : Inc} {i : Nat} {fn : Str} {b : Base} (hm : baseMethods.lookup (methodName fn) = some b) :
    ∀ {rs : List (List (List Span))}, (∀ r ∈ rs, ∀ l ∈ r, runOk l) → (b = .tableRow ∨ (b = .definition ∧ ∀ r ∈ rs, r.length = 2)) →
    ∀ {as : List Node}, eraseL as = treeArgs (callsOf fn rs) → ∀ {s : St}, Ready s i →
    ∃ css s', convertAll W k i [] (some .content) (evalArgs W k inc as) s = (.ok ((css.map (Content.list · false)).map .content), s') ∧
      Touch i s s' ∧ GridIs i rs css
  | [], _, _, as, e, s, _ => by
    rw [eraseL_map, callsOf, List.map_nil, treeArgs, List.map_eq_nil_iff] at e
    subst e
    exact ⟨[], s, rfl, .refl i s, .nil⟩
  | r :: rs, h, hb, as, e, s, rd => by
    rw [eraseL_map, callsOf, List.map_cons, treeArgs, List.map_eq_cons_iff] at e
    obtain ⟨a, as, rfl, e1, e2⟩ := e
    obtain ⟨cs, s1, a1, a2, a3⟩ := row_run (W := W) (k := k) (inc := inc) (h r (by simp)) hm
      (hb.imp id fun h => ⟨h.1, h.2 r (by simp)⟩) e1 rd
    obtain ⟨css, s2, b1, b2, b3⟩ := evalGrid (k := k) (inc := inc) (rs := rs) hm (fun r hr => h r (by simp [hr]))
      (hb.imp id fun h => ⟨h.1, fun r hr => h.2 r (by simp [hr])⟩) (as := as) (by rw [eraseL_map]; exact e2) (a2.ready rd)
    refine ⟨cs :: css, s2, ?_, a2.trans b2, .cons a3 b3⟩
    simp only [evalArgs, convertAll, M.bind_run, M.bind, convert_content a1 rfl, b1, M.pure_run, List.map_cons]

theorem tableRows_map (css : List (List Content)) : tableRows (css.map (Content.list · false)) = some css := by
  induction css with
  | nil => rfl
  | cons cs css ih => rw [List.map_cons, tableRows, ih]; rfl

theorem definitionItems_map (prs : List (Content × Content)) :
    definitionItems ((prs.map fun d => [d.1, d.2]).map (Content.list · false)) = some prs := by
  induction prs with
  | nil => rfl
  | cons d prs ih => rw [List.map_cons, List.map_cons, definitionItems, ih]; rfl

theorem GridIs.pairs {i : Nat} : ∀ {ds : List (List Span × List Span)} {css : List (List Content)}, GridIs i (ds.map pairRow) css →
    ∃ prs, css = prs.map (fun d => [d.1, d.2]) ∧ PairsIs i ds prs
  | [], _, .nil => ⟨[], rfl, .nil⟩
  | (a, b) :: ds, _, .cons (.cons h1 n1 (.cons h2 n2 .nil)) h3 => by
    obtain ⟨prs, rfl, h4⟩ := GridIs.pairs h3
    exact ⟨_ :: prs, rfl, .cons h1 n1 h2 n2 h4⟩

/-- The nodes of a paragraph that is one call. -/
theorem callPara_nodes {n : Node} {fn : Str} {as : List Arg} (e : n.erase = (callPara fn as).tree) :
    ∃ bs loc, n = .para [[.invoke fn bs loc]] ∧ eraseL bs = treeArgs as := by
  simp only [callPara, Para.tree, treeLines, Line.tree, treeWords, Word.tree, Vl.tree] at e
  replace e := erase_para e
  obtain ⟨ms, rfl, e⟩ := e
  rw [eraseLL_map, List.map_eq_singleton_iff] at e
  obtain ⟨l, rfl, e⟩ := e
  rw [eraseL_map, List.map_eq_singleton_iff] at e
  obtain ⟨m, rfl, e⟩ := e
  replace e := erase_invoke e
  obtain ⟨bs, loc, rfl, e⟩ := e
  exact ⟨bs, loc, rfl, e⟩

/-- A paragraph that is one call giving a block. -/
theorem callPara_block {k : Nat} {inc : Inc} {i : Nat} {n : Node} {cs0 : List Content} {c : Content} {s s' : St} (h0 : Items cs0)
    (hc : isItem c = true) (hf : isFlow c = some false) (h : evalNode W k inc n i (oneBody []) s = (.ok (oneBody ([] ++ [c])), s')) :
    evalNode W k inc (.para [[n]]) i (oneBody cs0) s = (.ok (oneBody (cs0 ++ [c])), s') := by
  have h' : evalNode W k inc n i .nil s = (.ok c, s') := h
  have hn : c.isNil = false := by cases c <;> first | rfl | cases hc
  simp only [evalNode, evalLines, evalSeq, M.bind_run, M.bind, h', M.pure_run, hn, Bool.false_eq_true, if_false, finishPara, hf]
  rw [append_one h0 hc]

/-- A paragraph that is one call giving nothing. -/
theorem callPara_none {k : Nat} {inc : Inc} {i : Nat} {n : Node} {r : Content} {s s' : St}
    (h : evalNode W k inc n i .nil s = (.ok .nil, s')) : evalNode W k inc (.para [[n]]) i r s = (.ok r, s') := by
  simp only [evalNode, evalLines, evalSeq, M.bind_run, M.bind, h, M.pure_run, Content.isNil, if_true, finishPara]

theorem rows_ne (b : Block) {ls : List (List Node)} (h : b.arg.tree = .pre ls) : ∀ l ∈ ls, l ≠ [] := by
  cases b with
  | verbatim rs =>
    injection h with h
    subst h
    intro l hl
    obtain ⟨x, _, rfl⟩ := List.mem_map.1 hl
    simp
  | preformatted rs =>
    injection h with h
    subst h
    intro l hl
    rw [treePLines_map, List.mem_map] at hl
    obtain ⟨⟨a, b⟩, _, rfl⟩ := hl
    simp [PLine.tree]

theorem evalRows {k : Nat} {inc : Inc} {i : Nat} {s : St} : ∀ (ls : List (List Node)), (∀ l ∈ ls, AllStr l) → (∀ l ∈ ls, l ≠ []) →
    ∃ cs, evalLines W k inc ls i s = (.ok cs, s) ∧ RowsIs (ls.map plainL) cs
  | [], _, _ => ⟨[], rfl, .nil⟩
  | l :: ls, h, hn => by
    obtain ⟨cs, h1, h2⟩ := evalRows (k := k) (inc := inc) (i := i) (s := s) ls (fun x hx => h x (by simp [hx]))
      fun x hx => hn x (by simp [hx])
    have : ∃ ss : List Str, l = ss.map .str := by
      have := h l (by simp)
      clear h hn
      induction l with
      | nil => exact ⟨[], rfl⟩
      | cons n ns ih =>
        obtain ⟨u, rfl⟩ := this n (by simp)
        obtain ⟨ss, rfl⟩ := ih fun m hm => this m (by simp [hm])
        exact ⟨u :: ss, rfl⟩
    obtain ⟨ss, rfl⟩ := this
    have hs : ss ≠ [] := by
      have := hn _ (by simp : ss.map Node.str ∈ ss.map Node.str :: ls)
      simpa using this
    have e : evalSeq W k inc (ss.map .str) i .nil s = (.ok (oneBody (ss.map .str)), s) :=
      evalStrs (W := W) (k := k) (inc := inc) (i := i) (s := s) ss (cs := []) (by intro c hc; cases hc)
    refine ⟨oneBody (ss.map .str) :: cs, ?_, ?_⟩
    · simp only [evalLines, M.bind_run, M.bind, e, h1, M.pure_run, oneBody_notNil (items_strs ss) (by simpa using hs)]
      rfl
    · rw [List.map_cons, plainL_strs]
      exact .cons hs h2

mutual
theorem evalBlk {k : Nat} {inc : Inc} {i : Nat} : ∀ {b : Blk}, b.ok → ∀ {n : Node}, n.erase = b.sur.tree →
    ∀ {s : St} {cs0 : List Content}, Ready s i → Items cs0 →
    ∃ c s', evalNode W k inc n i (oneBody cs0) s = (.ok (oneBody (cs0 ++ [c])), s') ∧ Touch i s s' ∧ BlkIs i b c
  | .para ls, h, n, e, s, cs0, rd, h0 => by
    simp only [Blk.sur, Para.tree] at e
    replace e := erase_para e
    obtain ⟨ms, rfl, e⟩ := e
    have e' : eraseLL ms = ls.map (fun l => treeWords (wordsSpans l)) := by
      rw [e]
      clear h e
      induction ls with
      | nil => rfl
      | cons l ls ih => rw [List.map_cons, treeLines, ih]; rfl
    obtain ⟨cs, s', h1, h2, h3⟩ := evalLs (W := W) (k := k) (inc := inc) (i := i) (fun l hl => (h.2 l hl).1) e' rd
    refine ⟨.para cs, s', ?_, h2, .para h3⟩
    have hp : finishPara (oneBody cs0) cs = pure (append (oneBody cs0) [.para cs]) := by
      cases h3 with
      | nil => exact absurd rfl h.1
      | @cons l ls cs ds g1 g2 g3 =>
        cases ds with
        | nil => rw [finishPara, isFlow_oneBody g2 g1.flow]
        | cons d r => rfl
    simp only [evalNode, M.bind_run, M.bind, h1, hp, M.pure_run]
    rw [append_one h0 rfl]
  | .code b, h, n, e, s, cs0, rd, h0 => by
    replace e := callPara_nodes e
    obtain ⟨bs, loc, rfl, e⟩ := e
    rw [eraseL_map, treeArgs, treeArgs, List.map_eq_singleton_iff] at e
    obtain ⟨a, rfl, e⟩ := e
    obtain ⟨ls, t1, t2, t3⟩ := b.arg_tree
    replace e := erase_pre (e.trans t1)
    obtain ⟨ms, rfl, e⟩ := e
    have := eraseLL_strs' e t2
    subst this
    obtain ⟨cs, h1, h2⟩ := evalRows (W := W) (k := k) (inc := inc) (i := i) (s := s.calling i loc) ms t2 (rows_ne b t1)
    rw [t3] at h2
    refine ⟨_, s.calling i loc, ?_, .call i s loc, .code h2⟩
    refine callPara_block h0 rfl rfl (style_run (st := q%"verbatim") (c := .pre cs) rd (by decide) (by intro c hc; cases hc) rfl ?_ rfl)
    simp only [evalNode, M.bind_run, M.bind, h1, M.pure_run]
    rfl
  | .list o items, h, n, e, s, cs0, rd, h0 => by
    replace e := callPara_nodes e
    obtain ⟨bs, loc, rfl, e⟩ := e
    obtain ⟨cs, s', h1, h2, h3⟩ := evalItems (W := W) (k := k) (inc := inc) (i := i) h.2 e (s := s.calling i loc) ((Touch.call i s loc).ready rd)
    refine ⟨_, s', ?_, (Touch.call i s loc).trans h2, .list (o := o) h3⟩
    refine callPara_block h0 rfl rfl ?_
    obtain ⟨path, ee⟩ := invoke_base (W := W) (k := k) (inc := inc) (fn := if o then q%"ordered-list" else q%"list") (args := bs) (loc := loc)
      (r := oneBody []) rd (b := if o then .orderedList else .list) (by cases o <;> decide) (by cases o <;> rfl)
      (vals := cs.map .content) (s1 := s') (by cases o <;> exact h1) (noZero_map cs) (ret := .content (.list cs o)) (s2 := s')
      (by cases o <;> simp only [Bool.false_eq_true, if_false, if_true, callBase, contentArgs_map] <;> rfl)
    rw [ee, finish_content rfl]
    rfl
  | .table rows, h, n, e, s, cs0, rd, h0 => by
    replace e := callPara_nodes e
    obtain ⟨bs, loc, rfl, e⟩ := e
    obtain ⟨css, s', h1, h2, h3⟩ := evalGrid (W := W) (k := k) (inc := inc) (i := i) (b := .tableRow) (by decide) (fun r hr => (h.2 r hr).2)
      (.inl rfl) e (s := s.calling i loc) ((Touch.call i s loc).ready rd)
    refine ⟨_, s', ?_, (Touch.call i s loc).trans h2, .table h3⟩
    refine callPara_block h0 rfl rfl ?_
    obtain ⟨path, ee⟩ := invoke_base (W := W) (k := k) (inc := inc) (fn := q%"table") (args := bs) (loc := loc)
      (r := oneBody []) rd (b := .table) (by decide) rfl (vals := (css.map (Content.list · false)).map .content) (s1 := s') h1 (noZero_map _)
      (ret := .both (.table css) none) (s2 := s') (by rw [callBase, contentArgs_map, tableRows_map]; rfl)
    rw [ee, finish_both rfl]
    rfl
  | .defs ds, h, n, e, s, cs0, rd, h0 => by
    replace e := callPara_nodes e
    obtain ⟨bs, loc, rfl, e⟩ := e
    obtain ⟨css, s', h1, h2, h3⟩ := evalGrid (W := W) (k := k) (inc := inc) (i := i) (b := .definition) (by decide)
      (fun r hr => (pairs_ok h.2 r hr).2) (.inr ⟨rfl, fun r hr => by obtain ⟨d, _, rfl⟩ := List.mem_map.1 hr; rfl⟩) e
      (s := s.calling i loc) ((Touch.call i s loc).ready rd)
    obtain ⟨prs, rfl, h4⟩ := h3.pairs
    refine ⟨_, s', ?_, (Touch.call i s loc).trans h2, .defs h4⟩
    refine callPara_block h0 rfl rfl ?_
    obtain ⟨path, ee⟩ := invoke_base (W := W) (k := k) (inc := inc) (fn := q%"definitions") (args := bs) (loc := loc)
      (r := oneBody []) rd (b := .definitions) (by decide) rfl
      (vals := ((prs.map fun d : Content × Content => [d.1, d.2]).map (Content.list · false)).map .content) (s1 := s') h1 (noZero_map _)
      (ret := .both (.defs prs) none) (s2 := s') (by rw [callBase, contentArgs_map, definitionItems_map]; rfl)
    rw [ee, finish_both rfl]
    rfl
  | .box a bs, h, n, e, s, cs0, rd, h0 => by
    replace e := callPara_nodes e
    obtain ⟨as, loc, rfl, e⟩ := e
    rw [eraseL_map, treeArgs, treeArgs, List.map_eq_singleton_iff] at e
    obtain ⟨x, rfl, e⟩ := e
    rw [Arg.tree] at e
    replace e := erase_seq e
    obtain ⟨ms, rfl, e⟩ := e
    obtain ⟨cs, s', h1, h2, h3⟩ := evalBlks (k := k) (inc := inc) (i := i) h.2 e (s := s.calling i loc) (cs0 := [])
      ((Touch.call i s loc).ready rd) (by intro c hc; cases hc)
    rw [List.nil_append] at h1
    have hne := h3.ne h.1
    have hb := BlkIs.box (a := a) h3 hne
    refine ⟨_, s', ?_, (Touch.call i s loc).trans h2, hb⟩
    refine callPara_block h0 rfl hb.noFlow (style_run (st := if a then q%"aside" else q%"inset") (c := oneBody cs) rd
      (by cases a <;> decide) (by intro c hc; cases hc) (oneBody_notNil h3.items hne) ?_ rfl)
    rw [evalNode]
    exact h1
  | .toc, h, n, e, s, cs0, rd, h0 => by
    replace e := callPara_nodes e
    obtain ⟨as, loc, rfl, e⟩ := e
    rw [eraseL_map, treeArgs, List.map_eq_nil_iff] at e
    subst e
    refine ⟨_, s.calling i loc, ?_, .call i s loc, .toc⟩
    refine callPara_block h0 rfl rfl ?_
    obtain ⟨path, ee⟩ := invoke_base (W := W) (k := k) (inc := inc) (fn := q%"table-of-contents") (args := []) (loc := loc)
      (r := oneBody []) rd (b := .tableOfContents) (by decide) rfl
      (vals := []) (s1 := s.calling i loc) rfl rfl (ret := .content (.toc i)) (s2 := s.calling i loc) rfl
    rw [ee, finish_content rfl]
    rfl
theorem evalBlks {k : Nat} {inc : Inc} {i : Nat} : ∀ {bs : List Blk}, okBlks bs → ∀ {ns : List Node}, eraseL ns = treeParas (surBlks bs) →
    ∀ {s : St} {cs0 : List Content}, Ready s i → Items cs0 →
    ∃ cs s', evalSeq W k inc ns i (oneBody cs0) s = (.ok (oneBody (cs0 ++ cs)), s') ∧ Touch i s s' ∧ BlksIs i bs cs
  | [], _, ns, e, s, cs0, _, _ => by
    rw [eraseL_map, surBlks, treeParas, List.map_eq_nil_iff] at e
    subst e
    exact ⟨[], s, by rw [List.append_nil]; rfl, .refl i s, .nil⟩
  | b :: bs, h, ns, e, s, cs0, rd, h0 => by
    rw [eraseL_map, surBlks, treeParas, List.map_eq_cons_iff] at e
    obtain ⟨n, ns, rfl, e1, e2⟩ := e
    obtain ⟨c, s1, a1, a2, a3⟩ := evalBlk (k := k) (inc := inc) (i := i) h.1 e1 rd h0
    obtain ⟨cs, s2, b1, b2, b3⟩ := evalBlks (k := k) (inc := inc) (i := i) h.2 (by rw [eraseL_map]; exact e2) (a2.ready rd)
      (h0.append (b := [c]) fun d hd => by rw [List.mem_singleton.1 hd]; exact a3.item)
    refine ⟨c :: cs, s2, ?_, a2.trans b2, .cons a3 b3⟩
    simp only [evalSeq, M.bind_run, M.bind, a1, b1]
    rw [List.append_assoc]
    rfl
end

end Booklit.Ms
