import Verif.Lemmas.MsLooks
import Verif.Lemmas.IndexL
import Verif.Props.Build
import Verif.Props.Looks

/-!
The site that a manuscript becomes: its pages and their files.
-/

namespace Booklit.Ms

open Booklit Booklit.Src

variable {S : Site} {h : Heap} {b : Part} {t : Tree}

/-! ### Pages -/

open Tree in
theorem pagesL_mem {sp : Bool} {ks : List Tree} {x : Tree} (hx : x ∈ pages.pagesL h sp ks) :
    ∃ k ∈ ks, (sp = true ∧ x = k) ∨ x ∈ k.pages h := by
  induction ks with
  | nil => cases hx
  | cons k ks ih =>
    rw [pages.pagesL, List.append_assoc, List.mem_append, List.mem_append] at hx
    rcases hx with hx | hx | hx
    · refine ⟨k, List.mem_cons_self, .inl ?_⟩
      cases sp with
      | true => exact ⟨rfl, by simpa using hx⟩
      | false => cases hx
    · exact ⟨k, List.mem_cons_self, .inr hx⟩
    · obtain ⟨k', hk, h⟩ := ih hx
      exact ⟨k', List.mem_cons_of_mem _ hk, h⟩

theorem pages_isPage (bk : Book h t) {s : Tree} (hs : t.Sub s) : ∀ {x : Tree}, x ∈ s.pages h → h.isPage x.root = true := by
  induction s using Tree.ind with
  | h i ks ih =>
    intro x hx
    rw [Tree.pages] at hx
    obtain ⟨k, hk, h1⟩ := pagesL_mem hx
    rcases h1 with ⟨h1, rfl⟩ | h1
    · rw [Heap.isPage, bk.parent _ hs x hk]
      exact h1
    · exact ih k hk (hs.kid hk) h1

theorem place_le {ks os : List Nat} {n : Nat} {o p : Part} (hp : Place b ks n os o p) : os.length ≤ ks.length := by
  induction hp with
  | top => exact Nat.le_refl _
  | page => exact Nat.le_refl _
  | same _ _ _ ih => rw [List.length_append]; exact Nat.le_add_right_of_le ih

theorem place_isPage (L : Loaded h b t) {ks os : List Nat} {n : Nat} {o p : Part} (hp : Place b ks n os o p) {s : Tree} (ha : t.At ks s) :
    os = ks → h.isPage s.root = true := by
  cases hp with
  | top =>
    obtain rfl := ha.inj .here
    intro _
    rw [Heap.isPage, L.made.inv.2.1.parent]
  | @page ks0 n0 os0 o0 p0 _ k hp0 hs0 hk0 =>
    obtain ⟨s0, _, _, _, c1, c2, _⟩ := place_at L.made hp0
    obtain ⟨c, hc, hmc⟩ := c2.inv.2.2.2.get hk0
    obtain rfl := ha.inj (.step c1 hc)
    intro _
    rw [Heap.isPage, hmc.inv.2.1.parent]
    show (h.get s0.root).split = true
    rw [c2.inv.2.1.split, hs0]
  | same hp0 _ _ =>
    intro e
    have := place_le hp0
    rw [e, List.length_append, List.length_singleton] at this
    omega

/-- The sections that are written to files are the ones that start pages. -/
theorem written_places (L : Loaded h b t) {ps : List Nat} (hps : Ends (fun n => h.written n t.root) ps) (i : Nat) :
    i ∈ ps ↔ ∃ ks s p, t.At ks s ∧ s.root = i ∧ Place b ks 1 ks p p := by
  have bk := L.made.book L.nodup
  have he := hps.unique (written_ends bk t (Tree.Sub.refl t))
  constructor
  · intro hi
    have hid := Props.written_ids bk hps i hi
    have hpg : h.isPage i = true := by
      rw [he] at hi
      rcases List.mem_append.1 hi with hi | hi
      · split at hi
        · rename_i e
          rw [List.mem_singleton.1 hi]
          exact e
        · cases hi
      · obtain ⟨x, hx, rfl⟩ := List.mem_map.1 hi
        exact pages_isPage bk (Tree.Sub.refl t) hx
    obtain ⟨s, ⟨ks, ha⟩, rfl⟩ := Tree.mem_ids.1 hid
    cases ha with
    | here => exact ⟨[], t, b, .here, rfl, .top⟩
    | @step ks q k s hq hk =>
      obtain ⟨n, os, o, p, par, hp, hm⟩ := at_place L.made hq
      obtain ⟨r, hr, hmr⟩ := hm.inv.2.2.2.get' hk
      rw [Heap.isPage, hmr.inv.2.1.parent] at hpg
      have hpg : (h.get q.root).split = true := hpg
      rw [hm.inv.2.1.split] at hpg
      exact ⟨ks ++ [k], s, r, .step hq hk, rfl, .page hp hpg hr⟩
  · rintro ⟨ks, s, p, ha, rfl, hp⟩
    rw [he]
    refine sub_written bk ⟨ks, ha⟩ _ (List.mem_append_left _ ?_)
    have : h.isPage s.root = true := place_isPage L hp ha rfl
    rw [if_pos this]
    exact List.mem_singleton.2 rfl

/-! ### Titles as texts -/

theorem Shape.text {x : Sec} {par : Option Nat} {p : Part} {i : Nat} {kids : List Nat} (hs : Shape true x par p i kids) (bo : Bool) (n : Nat) :
    h.text bo n x.title = .ok (plainSpans p.title) := hs.headed.text h bo n

/-! ### The search index can be made -/

theorem Loaded.index (L : Loaded h b t) (bo : Bool) (ext : Str) :
    ∃ ix N, ∀ m, N ≤ m → h.searchIndex bo ext m t.root = .ok ix := by
  have bk := L.made.book L.nodup
  refine index_told (S := ⟨bo, fun _ => none⟩) bk (books_told _ bk ?_ ?_ ?_ ?_) ext
  all_goals
    intro i hi
    obtain ⟨s, ks, n, os, o, p, par, hs, rfl, hp, hm⟩ := L.at hi
  · exact fun g hg => (hm.inv.2.1.tag_title hg).2.1
  · intro g hg d hd
    obtain ⟨h1, h2⟩ := (hm.inv.2.1.allTag hg).2 true d hd
    cases d with
    | ref j name c o l => exact h1.elim
    | sect i => exact h1.elim
    | nil => exact h1.elim
    | _ => exact ⟨rfl, fun i h => by cases h⟩
  · intro g hg d hd
    rw [(hm.inv.2.1.tag_title hg).2.2] at hd
    simp only [Content.parts, List.mem_singleton] at hd
    rw [hd]
    rfl
  · refine ⟨hm.inv.2.2.1.good.notNil, fun d hd => ?_⟩
    rcases hm.inv.2.2.1.good true d hd with ⟨h1, h2⟩ | ⟨_, rfl⟩
    · cases d with
      | ref j name c o l => exact ⟨h1.1 ▸ hi, h1.2.2.1⟩
      | sect i => exact h1.elim
      | _ => exact h2
    · rfl

/-! ### The page of a section -/

theorem Loaded.page (L : Loaded h b t) (hr : RefsOk b) (hS : ∀ i, S.force i = none) {ks os : List Nat} {n : Nat} {o p : Part}
    (hp : Place b ks n os o p) {s : Tree} (ha : t.At ks s) {k : Nat} {txt : Str} (ht : h.page S k s.root = .ok txt) :
    ∃ ds, readHtml txt = some ds ∧ PageDom b ks n p ds := by
  have bk := L.made.book L.nodup
  have hi : s.root ∈ t.ids := Tree.mem_ids.2 ⟨s, ⟨ks, ha⟩, rfl⟩
  obtain ⟨title, ds, h1, h2, html, head, body, shown, g1, g2, g3, g4, g5⟩ := Props.C66_page bk L.noRaw L.inBook
    (fun i c e => by rw [hS] at e; cases e) hi ht
  obtain ⟨s', so, par, par', a1, a2, a3, a4, a5, a6⟩ := place_at L.made hp
  obtain rfl := ha.inj a1
  rw [a2.inv.2.1.text] at h1
  obtain rfl := Res.ok.inj h1
  exact ⟨ds, h2, html, head, body, shown, g1, g2, g3, g4, Made.looks L hr p hp a2 ha g5⟩

end Booklit.Ms
