import Verif.Model.Similar
import Verif.Spec.Similar

/-!
The distance is the least number of mistakes.
-/

namespace Booklit

theorem lev_nil (b : Str) : lev [] b = b.length := by
  cases b <;> rfl

theorem lev_nil_right (a : Str) : lev a [] = a.length := by
  induction a with
  | nil => rfl
  | cons x a ih =>
    show lev a [] + 1 = a.length + 1
    rw [ih]

theorem levRow_tail (y : Char) (b : Str) : ∀ a : Str, (levRow (y :: b) a).tail = levRow b a
  | [] => rfl
  | x :: a => by
    rw [levRow, levStep, List.tail_cons, levRow_tail y b a]
    rfl

theorem lev_cons (x y : Char) (a b : Str) :
    lev (x :: a) (y :: b) = min (min (lev a (y :: b) + 1) (lev (x :: a) b + 1)) (lev a b + if x = y then 0 else 1) := by
  rw [lev, levRow, levStep, levRow_tail y b a]
  rfl

theorem lev_more (x : Char) (a c : Str) : lev (x :: a) c ≤ lev a c + 1 := by
  cases c with
  | nil => rw [lev_nil_right, lev_nil_right, List.length_cons]; omega
  | cons y c => rw [lev_cons]; omega

theorem lev_more_right (a : Str) (y : Char) (c : Str) : lev a (y :: c) ≤ lev a c + 1 := by
  cases a with
  | nil => rw [lev_nil, lev_nil, List.length_cons]; omega
  | cons x a => rw [lev_cons]; omega

theorem lev_less (x : Char) (a : Str) : ∀ c : Str, lev a c ≤ lev (x :: a) c + 1
  | [] => by rw [lev_nil_right, lev_nil_right, List.length_cons]; omega
  | y :: c => by
    have h1 := lev_less x a c
    have h2 := lev_more_right a y c
    rw [lev_cons]
    omega

theorem lev_wrong (x y : Char) (a : Str) : ∀ c : Str, lev (x :: a) c ≤ lev (y :: a) c + 1
  | [] => by rw [lev_nil_right, lev_nil_right, List.length_cons, List.length_cons]; omega
  | z :: c => by
    have h1 := lev_wrong x y a c
    rw [lev_cons, lev_cons]
    split <;> split <;> omega

theorem lev_both (x : Char) {a b : Str} (h : ∀ c, lev a c ≤ lev b c + 1) : ∀ c : Str, lev (x :: a) c ≤ lev (x :: b) c + 1
  | [] => by
    have := h []
    rw [lev_nil_right, lev_nil_right] at this
    rw [lev_nil_right, lev_nil_right, List.length_cons, List.length_cons]
    omega
  | y :: c => by
    have h1 := lev_both x h c
    have h2 := h (y :: c)
    have h3 := h c
    rw [lev_cons, lev_cons]
    omega

theorem lev_under (u : Str) {a b : Str} (h : ∀ c, lev a c ≤ lev b c + 1) : ∀ c : Str, lev (u ++ a) c ≤ lev (u ++ b) c + 1 := by
  induction u with
  | nil => exact h
  | cons x u ih => exact lev_both x ih

theorem lev_slip {a b : Str} (h : Slip a b) : ∀ c, lev a c ≤ lev b c + 1 := by
  cases h with
  | more u c v => exact lev_under u (lev_less c v)
  | less u c v => exact lev_under u (lev_more c v)
  | wrong u c d v => exact lev_under u (lev_wrong c d v)

theorem lev_self : ∀ a : Str, lev a a = 0
  | [] => by rw [lev_nil]; rfl
  | x :: a => by rw [lev_cons, lev_self a, if_pos rfl]; omega

theorem lev_slips {n : Nat} {a b : Str} (h : Slips n a b) : lev a b ≤ n := by
  induction h with
  | none a => rw [lev_self]; omega
  | one h1 _ ih =>
    have := lev_slip h1
    exact Nat.le_trans (this _) (Nat.succ_le_succ ih)

theorem Slip.cons (x : Char) {a b : Str} (h : Slip a b) : Slip (x :: a) (x :: b) := by
  cases h with
  | more u c v => exact .more (x :: u) c v
  | less u c v => exact .less (x :: u) c v
  | wrong u c d v => exact .wrong (x :: u) c d v

theorem Slips.cons (x : Char) {n : Nat} {a b : Str} (h : Slips n a b) : Slips n (x :: a) (x :: b) := by
  induction h with
  | none a => exact .none _
  | one h1 _ ih => exact .one (h1.cons x) ih

theorem slips_more : ∀ b : Str, Slips b.length [] b
  | [] => .none _
  | y :: b => .one (.more [] y []) ((slips_more b).cons y)

theorem slips_less : ∀ a : Str, Slips a.length a []
  | [] => .none _
  | x :: a => .one (.less [] x a) (slips_less a)

theorem slips_lev (a b : Str) : Slips (lev a b) a b := by
  match a, b with
  | [], b => rw [lev_nil]; exact slips_more b
  | x :: a, [] => rw [lev_nil_right]; exact slips_less _
  | x :: a, y :: b =>
    have h1 := slips_lev a (y :: b)
    have h2 := slips_lev (x :: a) b
    have h3 := slips_lev a b
    rw [lev_cons]
    by_cases m1 : lev a (y :: b) + 1 ≤ min (lev (x :: a) b + 1) (lev a b + if x = y then 0 else 1)
    · rw [show min (min (lev a (y :: b) + 1) (lev (x :: a) b + 1)) (lev a b + if x = y then 0 else 1) = lev a (y :: b) + 1 by omega]
      exact .one (.less [] x a) h1
    · by_cases m2 : lev (x :: a) b + 1 ≤ lev a b + if x = y then 0 else 1
      · rw [show min (min (lev a (y :: b) + 1) (lev (x :: a) b + 1)) (lev a b + if x = y then 0 else 1) = lev (x :: a) b + 1 by omega]
        exact .one (.more [] y (x :: a)) (h2.cons y)
      · rw [show min (min (lev a (y :: b) + 1) (lev (x :: a) b + 1)) (lev a b + if x = y then 0 else 1) = lev a b + if x = y then 0 else 1 by omega]
        by_cases e : x = y
        · rw [if_pos e, e]
          exact h3.cons y
        · rw [if_neg e]
          exact .one (.wrong [] x y a) (h3.cons y)
termination_by a.length + b.length

/-- Names are similar if and only if there are few mistakes. -/
theorem similarTags_iff {a b : Str} : similarTags a b = true ↔ (a = [] ∧ b = []) ∨ Near a b := by
  rw [similarTags, Bool.or_eq_true, Bool.and_eq_true, decide_eq_true_eq, List.isEmpty_iff, List.isEmpty_iff]
  refine or_congr Iff.rfl ⟨fun h => ⟨_, slips_lev a b, h⟩, fun ⟨n, h1, h2⟩ => ?_⟩
  have := lev_slips h1
  omega

end Booklit
