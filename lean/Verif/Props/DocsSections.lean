import Verif.Lemmas.DocsSectionL
import Verif.Lemmas.MsLettersL
import Verif.Props.DocsPlugin

/-!
The sections of Booklit's own documentation (C98).
-/

set_option maxRecDepth 100000

namespace Booklit.Props

open Booklit Booklit.Tmpl Booklit.Templates

/-- The heading of a section of the documentation. `num` is nothing for the top of the book. -/
def docsHeading (d : Nat) (name num title : Str) : Str :=
  q%"<h" ++ decimal d ++ q%" class=\"section-header\"><a id=\"" ++ escAttr name ++ q%"\"></a>" ++ num ++ title ++ q%"</h" ++ decimal d ++ q%">"

/-- **C98**: what a section of the documentation is shown as: a heading of the level that its depth on the page has, with its tag as
anchor, with its number, if it is not the top, that leads to its address, and its title; then its text; and then, if they are not split off, the
sections in it, in order. -/
theorem C98_section {h : Heap} {t : Tree} (b : Book h t) {ks : List Nat} {s : Tree} (hs : t.At ks s) (hst : (h.get s.root).style = [])
    {S : Site} {x : Str} (hx : RenderedAs docsHtml S h (.sect s.root) x) :
    ∃ num title body kids : Str,
      x = docsHeading (min 6 (1 + ((t.ancestors ks).takeWhile fun a => !(h.get a).resetDepth).length)) (h.get s.root).primaryTag.name num title ++
        q%"\n\n" ++ body ++ q%"\n\n" ++ kids ∧
      (ks = [] → num = []) ∧
      (ks ≠ [] → ∃ u, Address h (h.get s.root).primaryTag u ∧
        num = q%"<span class=\"section-number\"><a href=\"" ++ escURL u ++ q%"\">" ++ dotted (ks.map (· + 1)) ++ q%"</a> </span>") ∧
      RenderedAs docsHtml S h (h.get s.root).title title ∧ RenderedAs docsHtml S h (h.get s.root).body body ∧
      ((h.get s.root).split = true → kids = []) ∧
      ((h.get s.root).split = false → ∃ xs : List Str, xs.length = s.kids.length ∧
        (∀ (j : Nat) (k : Tree), s.kids[j]? = some k → ∃ y, xs[j]? = some y ∧ RenderedAs docsHtml S h (.sect k.root) y) ∧
        kids = q%"\n  " ++ (xs.flatMap fun y => q%"\n    " ++ y ++ q%"\n  ") ++ q%"\n") := by
  obtain ⟨n, hx⟩ := hx
  rcases n with _ | _ | n
  · cases hx
  · cases hx
  · rw [run] at hx
    dsimp only [Content.visit] at hx
    rw [hst, if_pos rfl, run, show q%"section" ++ q%".tmpl" = q%"section.tmpl" from rfl, d_section_is] at hx
    dsimp only at hx
    rw [exec_dsection rfl (fun i d e => (headerDepth_range (ofFuel_ok e)).2),
      show (envOf htmlMode S h n (run htmlMode (htmlMode.compile docsHtml) S h n)).h = h from rfl] at hx
    obtain ⟨d, e1, hx1⟩ := Res.ok_of_bind hx
    obtain ⟨num, e2, hx2⟩ := Res.ok_of_bind hx1
    obtain ⟨title, e3, hx3⟩ := Res.ok_of_bind hx2
    obtain ⟨body, e4, hx4⟩ := Res.ok_of_bind hx3
    obtain ⟨kids, e5, hx5⟩ := Res.ok_of_map hx4
    clear hx hx1 hx2 hx3 hx4
    replace e1 := headerDepth_in b hs (ofFuel_ok e1)
    refine ⟨num, title, body, kids, ?_, fun hk => ?_, fun hk => ?_, ⟨n, e3⟩, ⟨n, e4⟩, fun hp => ?_, fun hp => ?_⟩
    · rw [← hx5, ← e1]
      simp only [docsHeading, List.append_assoc]
      rfl
    · have hp : (h.get s.root).parent = none := by
        cases hs with
        | here => exact b.top
        | step hp hk' => simp at hk
      rw [if_neg (by rw [hp]; simp)] at e2
      cases e2
      rfl
    · have hp : (h.get s.root).parent.isSome = true := by
        cases hs with
        | here => exact absurd rfl hk
        | step hp hk => rw [b.kid_parent hp hk]; rfl
      rw [if_pos hp] at e2
      obtain ⟨u, e6, e7⟩ := Res.ok_of_bind e2
      obtain ⟨k, e8, rfl⟩ := Res.ok_of_map e7
      obtain rfl := number_in b hs (ofFuel_ok e8)
      refine ⟨u, tagURL_address e6, ?_⟩
      rw [Ms.escText_dotted]
    · rw [if_pos hp] at e5
      cases e5
      rfl
    · rw [if_neg (by rw [hp]; simp)] at e5
      obtain ⟨xs, e6, rfl⟩ := Res.ok_of_map e5
      have hc : (h.get s.root).children = s.kids.map Tree.root := b.children s ⟨ks, hs⟩
      obtain ⟨l, hl⟩ := rendered_all (cs := (h.get s.root).children.map .sect) (by rw [resMap_map]; exact e6)
      refine ⟨xs, by rw [l, hc]; simp, fun j k hk => hl j _ (by rw [hc]; simp [hk]), rfl⟩

/-- **C98**: of a section in the style of the first page only the text is shown. -/
theorem C98_splash {h : Heap} {i : Nat} (hst : (h.get i).style = q%"splash") {S : Site} {x : Str} :
    RenderedAs docsHtml S h (.sect i) x → RenderedAs docsHtml S h (h.get i).body x := by
  rintro ⟨n, hx⟩
  rcases n with _ | _ | n
  · cases hx
  · cases hx
  · rw [run] at hx
    dsimp only [Content.visit] at hx
    rw [hst, if_neg (by decide), run, show q%"splash" ++ q%".tmpl" = q%"splash.tmpl" from rfl, d_splash_is] at hx
    dsimp only at hx
    rw [exec_splash rfl] at hx
    exact ⟨n, hx⟩

example : RenderedAs docsHtml ⟨false, fun _ => none⟩ [{ Sec.fresh none q%"x.lit" with style := q%"splash", title := .str q%"T", body := .str q%"a<b" }] (.sect 0)
    q%"a&lt;b" := ⟨6, ok_of_text (by decide +kernel)⟩

end Booklit.Props
