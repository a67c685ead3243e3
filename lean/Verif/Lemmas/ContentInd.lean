import Verif.Model.Content

/-! Induction over content with membership-style hypotheses. -/

namespace Booklit

theorem Content.ind {P : Content → Prop}
    (nil : P .nil) (str : ∀ s, P (.str s))
    (seq : ∀ cs, (∀ c ∈ cs, P c) → P (.seq cs))
    (para : ∀ cs, (∀ c ∈ cs, P c) → P (.para cs))
    (pre : ∀ cs, (∀ c ∈ cs, P c) → P (.pre cs))
    (ref : ∀ s t c o l, P c → P (.ref s t c o l))
    (sect : ∀ i, P (.sect i)) (toc : ∀ i, P (.toc i))
    (styled : ∀ st b c ps, P c → (∀ p ∈ ps, P p.2) → P (.styled st b c ps))
    (target : ∀ t l ti c, P ti → P c → P (.target t l ti c))
    (image : ∀ p d, P (.image p d))
    (list : ∀ cs o, (∀ c ∈ cs, P c) → P (.list cs o))
    (link : ∀ c u, P c → P (.link c u))
    (table : ∀ rs, (∀ r ∈ rs, ∀ c ∈ r, P c) → P (.table rs))
    (defs : ∀ ds, (∀ d ∈ ds, P d.1 ∧ P d.2) → P (.defs ds))
    (lazy : ∀ b i, P (.lazy b i)) (aux : ∀ c, P c → P (.aux c)) (c : Content) : P c := by
  refine Content.rec (motive_1 := P) (motive_2 := fun cs => ∀ c ∈ cs, P c) (motive_3 := fun ps => ∀ p ∈ ps, P p.2)
    (motive_4 := fun rs => ∀ r ∈ rs, ∀ c ∈ r, P c) (motive_5 := fun ds => ∀ d ∈ ds, P d.1 ∧ P d.2)
    (motive_6 := fun p => P p.2) (motive_7 := fun d => P d.1 ∧ P d.2)
    nil str seq para pre ref sect toc (fun st b c ps h h' => styled st b c ps h h') (fun t l ti c h h' => target t l ti c h h')
    image list link table defs lazy aux
    ?_ ?_ ?_ ?_ ?_ ?_ ?_ ?_ ?_ ?_ c
  · simp
  · intro a l h h' c hc; exact (List.mem_cons.mp hc).elim (fun e => e ▸ h) (h' c)
  · simp
  · intro a l h h' c hc; exact (List.mem_cons.mp hc).elim (fun e => e ▸ h) (h' c)
  · simp
  · intro a l h h' c hc; exact (List.mem_cons.mp hc).elim (fun e => e ▸ h) (h' c)
  · simp
  · intro a l h h' c hc; exact (List.mem_cons.mp hc).elim (fun e => e ▸ h) (h' c)
  · exact fun _ _ h => h
  · exact fun _ _ h h' => ⟨h, h'⟩

end Booklit
