import Verif.Lemmas.ProseL
import Verif.Props.Surface
import Verif.Props.Calls

/-!
Prose from the file to the section (C39).
-/

namespace Booklit.Props

open Booklit

/-- **C39**: a file of escaped prose loads, in every state reached by loading documents and with every plugin, into a
section without title and children, whose body has a paragraph for each paragraph and in it a line for each line, with
exactly the characters of the text. -/
theorem C39_prose (W : World) {path : Str} {info : FileInfo} {nl : Str} {text : List (List Str)} (hnl : lineEnd nl) (ht : proseOk text)
    (hf : W.fs path = some info) (hd : info.data = some (proseSrc nl text)) {s : St} (hr : Reach W s) (n : Nat) (parent : Option Nat)
    (plugins : List Nat) :
    ∃ (s' : St) (ps : List (List Content)), loadFile W (n + 1) parent path plugins s = (.ok s.heap.length, s') ∧
      (s'.heap.get s.heap.length).body = oneBody (ps.map .para) ∧
      ps.map (·.map fun l => (l.texts true).flatten) = text ∧
      (∀ m b, s'.heap.text b m (s'.heap.get s.heap.length).body = .ok (plainProse text)) ∧
      (s'.heap.get s.heap.length).children = [] ∧ (s'.heap.get s.heap.length).title.isEmpty = true ∧
      (s'.heap.get s.heap.length).tags = [] := by
  obtain ⟨lss, hp, hl, ha⟩ := C02_prose_round_trip nl hnl text ht
  have hparse : parseFile path info = .ok (.seq (lss.map .para)) := by
    rw [parseFile, hd]
    dsimp only
    rw [hp]
  have hnode : nodeOf s path info = .ok (.seq (lss.map .para)) := by
    have hc := hr.cacheOk
    cases h : nodeOf s path info with
    | ok m =>
      obtain ⟨info', h1, h2⟩ := hc.nodeOf hf h
      rw [hf] at h1
      cases h1
      rw [hparse] at h2
      cases h2
      rfl
    | _ =>
      rw [nodeOf] at h
      cases h1 : cached s.cache path info.mtime with
      | some m => rw [h1] at h; cases h
      | none => rw [h1] at h; dsimp only at h; rw [hparse] at h; cases h
  have hne : ∀ ls ∈ lss, ls ≠ [] ∧ ∀ l ∈ ls, AllStr l ∧ plainL l ≠ [] := by
    intro ls hls
    have h1 := ht.2 (ls.map plainL) (by rw [← hl]; exact List.mem_map_of_mem hls)
    refine ⟨fun h => h1.1 (by simp [h]), fun l hm => ⟨ha ls hls l hm, ?_⟩⟩
    exact (h1.2 (plainL l) (List.mem_map_of_mem hm)).1
  obtain ⟨ps, he, hps⟩ := evalParas (W := W) (k := n) (inc := incl W n) lss (i := s.heap.length) (bs := [])
    (s := s.file parent path plugins) hne
  rw [hl] at hps
  rw [List.nil_append] at he
  have hpn : ps ≠ [] := by
    rintro rfl
    cases hps
    exact ht.1 rfl
  have hbn : (oneBody (ps.map .para)).isNil = false := by
    match ps, hpn with
    | [p], _ => rfl
    | p :: q :: r, _ => rfl
  have hmn : ps.map Content.para ≠ [] := by simpa using hpn
  have hbody : evalBody (evalNode W n (incl W n) (.seq (lss.map .para))) s.heap.length (s.file parent path plugins) =
      (.ok (), { s.file parent path plugins with
        heap := (s.file parent path plugins).heap.upd s.heap.length fun x => { x with body := oneBody (ps.map .para) } }) := by
    rw [evalBody, evalNode]
    simp only [M.bind_run, M.bind]
    rw [show (Content.nil) = oneBody (([] : List (List Content)).map .para) from rfl, he]
    simp only [hbn]
    rfl
  have hlen : s.heap.length < (s.file parent path plugins).heap.length := by simp [St.file]
  have hget : ((s.file parent path plugins).heap.upd s.heap.length fun x => { x with body := oneBody (ps.map .para) }).get s.heap.length =
      { Sec.fresh parent path with plugins := plugins, body := oneBody (ps.map .para) } := by
    rw [Heap.get_upd_eq _ _ hlen, St.file, Heap.get_append_eq]
  have hload : ∃ s', loadFile W (n + 1) parent path plugins s = (.ok s.heap.length, s') ∧
      s'.heap = (s.file parent path plugins).heap.upd s.heap.length fun x => { x with body := oneBody (ps.map .para) } := by
    rw [loadFile_run, evalFile_run, hf]
    dsimp only
    rw [hnode]
    dsimp only
    rw [hbody]
    dsimp only [remember]
    rw [Heap.collect, collectSection, hget]
    dsimp only [Sec.targets]
    rw [oneBody_targets hmn hps.targets_eq]
    exact ⟨_, rfl, rfl⟩
  obtain ⟨s', h1, h2⟩ := hload
  refine ⟨s', ps, h1, ?_⟩
  rw [h2, hget]
  dsimp only
  refine ⟨rfl, hps.texts, fun m b => ?_, rfl, rfl, rfl⟩
  have hflat : (text.map paraText).flatten = plainProse text := by
    rw [plainProse]
    congr 1
    refine List.map_congr_left fun p hp => ?_
    exact paraText_eq (ht.2 p hp).1 fun t h => ((ht.2 p hp).2 t h).1
  cases m <;> · rw [Heap.text, oneBody_text hmn (hps.text_eq _ _), hflat]

example : proseOk [[q%"a {b}", q%"c\\ "], [q%"d"]] := by
  refine ⟨by simp, ?_⟩
  simp [lineOk, Src.isBlank]

example : plainProse [[q%"a {b}", q%"c\\"], [q%"d"]] = q%"a {b} c\\\n\nd\n\n" := rfl

example : (loadFile (oneFile (proseSrc q%"\n" [[q%"a {b}", q%"c\\"], [q%"d"]])) 1 none q%"x.lit" [0] ⟨[], []⟩).1 = .ok 0 := by
  obtain ⟨_, _, h, _⟩ := C39_prose (oneFile (proseSrc q%"\n" [[q%"a {b}", q%"c\\"], [q%"d"]])) (path := q%"x.lit") (.inl rfl)
    (text := [[q%"a {b}", q%"c\\"], [q%"d"]]) (by refine ⟨by simp, ?_⟩; simp [lineOk, Src.isBlank]) rfl rfl .start 0 none [0]
  rw [h]
  rfl

end Booklit.Props
