import Verif.Best
import Verif.Feasible
import Mathlib.Tactic.Linarith
import Mathlib.Tactic.Ring

/-!
# Helpers for the movement laws

How clamping and the discrete repair treat a float coordinate, and elementary estimates shared by the movement rules.
-/

set_option linter.unusedSectionVars false
set_option linter.unusedVariables false

namespace Neorl

section
variable {K : Type} [Field K] [LinearOrder K] [IsStrictOrderedRing K]

/-- Mean of three numbers. -/
def avg3 (a b c : K) : K := (a + b + c) / 3

/-- Largest distance of `C * l` from `x` when the factor `C` ranges over `[0, 2]`. -/
def reach (l x : K) : K := max |x| |2 * l - x|

theorem clamp_lipschitz (lb ub x y : K) : |clamp lb ub x - clamp lb ub y| ≤ |x - y| := by
  unfold clamp
  rcases le_total x y with h | h
  · have h1 : max lb (min x ub) ≤ max lb (min y ub) := max_le_max le_rfl (min_le_min h le_rfl)
    rw [abs_of_nonpos (by linarith), abs_of_nonpos (by linarith)]
    have : max lb (min y ub) ≤ max lb (min x ub) + (y - x) := by
      apply max_le
      · have := le_max_left lb (min x ub); linarith
      · have h2 := le_max_right lb (min x ub)
        rcases le_total x ub with h3 | h3
        · rw [min_eq_left h3] at *; have := min_le_left y ub; linarith
        · rw [min_eq_right h3] at *; have := min_le_right y ub; linarith
    linarith
  · have h1 : max lb (min y ub) ≤ max lb (min x ub) := max_le_max le_rfl (min_le_min h le_rfl)
    rw [abs_of_nonneg (by linarith), abs_of_nonneg (by linarith)]
    have : max lb (min x ub) ≤ max lb (min y ub) + (x - y) := by
      apply max_le
      · have := le_max_left lb (min y ub); linarith
      · have h2 := le_max_right lb (min y ub)
        rcases le_total y ub with h3 | h3
        · rw [min_eq_left h3] at *; have := min_le_left x ub; linarith
        · rw [min_eq_right h3] at *; have := min_le_right x ub; linarith
    linarith

/-- A factor `2 r` with `r` in `[0, 1]` cannot bring `2 r l` further from `x` than `reach`. -/
theorem abs_le_reach {r l x : K} (h0 : 0 ≤ r) (h1 : r ≤ 1) : |2 * r * l - x| ≤ reach l x := by
  unfold reach
  have e : 2 * r * l - x = (1 - r) * (-x) + r * (2 * l - x) := by ring
  rw [e]
  calc |(1 - r) * (-x) + r * (2 * l - x)| ≤ |(1 - r) * (-x)| + |r * (2 * l - x)| := abs_add_le _ _
    _ = (1 - r) * |x| + r * |2 * l - x| := by
        rw [abs_mul, abs_mul, abs_of_nonneg h0, abs_of_nonneg (by linarith : (0 : K) ≤ 1 - r), abs_neg]
    _ ≤ (1 - r) * max |x| |2 * l - x| + r * max |x| |2 * l - x| := by
        apply add_le_add
        · exact mul_le_mul_of_nonneg_left (le_max_left _ _) (by linarith)
        · exact mul_le_mul_of_nonneg_left (le_max_right _ _) h0
    _ = max |x| |2 * l - x| := by ring

theorem reach_nonneg (l x : K) : 0 ≤ reach l x := le_trans (abs_nonneg x) (le_max_left _ _)

/-- `|(2 a r - a) d| ≤ a e` when `r` is in `[0, 1]` and `|d| ≤ e`. -/
theorem abs_coef_mul_le {a r d e : K} (ha : 0 ≤ a) (h0 : 0 ≤ r) (h1 : r ≤ 1) (hd : |d| ≤ e) : |(2 * a * r - a) * d| ≤ a * e := by
  rw [abs_mul]
  have : |2 * a * r - a| ≤ a := by
    rw [abs_le]
    constructor
    · nlinarith [mul_nonneg ha h0]
    · nlinarith [mul_nonneg ha (sub_nonneg.2 h1)]
  exact mul_le_mul this hd (abs_nonneg _) ha

end

section
variable {K : Type} [Field K] [LinearOrder K] [IsStrictOrderedRing K] [FloorRing K]

/-- Repair leaves a float coordinate at the clamped value. -/
theorem Space.repair_float {S : Space K} (hS : S.OK) {a : K} {d : ℕ → K × ℕ} {v w : List K} (h : S.disc a d (S.clip v) = .ok w) {j : ℕ} {b : K × K}
    {x : K} (ht : S.types[j]? = some VType.float) (hb : S.bounds[j]? = some b) (hx : v[j]? = some x) : w[j]? = some (clamp b.1 b.2 x) := by
  have h3 := (ensureDiscrete_spec hS.ordered h).2.2 j (Or.inl (by rw [ht]; simp))
  rw [h3]
  unfold Space.clip
  rw [ensureBounds_eq_zipWith hS.ordered, List.getElem?_zipWith, hb, hx]

theorem clamp_idem {lb ub : K} (h : lb ≤ ub) (x : K) : clamp lb ub (clamp lb ub x) = clamp lb ub x := by
  unfold clamp
  have h1 : max lb (min x ub) ≤ ub := max_le h (min_le_right _ _)
  rw [min_eq_left h1, max_eq_right (le_max_left _ _)]

/-- Row `i` of an in-place sweep is computed when the rows before it are new and the others old. -/
theorem sweep_row {X : Type} {f : ℕ → List X → X → Py X} {n : ℕ} {pop q : List X} (h : sweep f n pop = .ok q) :
    q.length = pop.length ∧ (∀ j, n ≤ j → q[j]? = pop[j]?) ∧ ∀ i < n, ∃ p row row', pop[i]? = some row ∧ q[i]? = some row' ∧
      p.length = pop.length ∧ (∀ j, p[j]? = if j < i then q[j]? else pop[j]?) ∧ f i p row = .ok row' := by
  induction n generalizing q with
  | zero => cases h; exact ⟨rfl, fun _ _ => rfl, fun i hi => by omega⟩
  | succ n ih =>
    simp only [sweep] at h
    split at h
    · cases h
    · rename_i p hp
      obtain ⟨h0, h1, h2⟩ := ih hp
      split at h
      · cases h
      · rename_i row hrow
        split at h
        · cases h
        · rename_i row' hr
          cases h
          refine ⟨by simpa using h0, fun j hj => by rw [List.getElem?_set_ne (by omega)]; exact h1 j (by omega), ?_⟩
          intro i hi
          rcases Nat.lt_or_ge i n with hi' | hi'
          · obtain ⟨p', r, r', e1, e2, e0, e3, e4⟩ := h2 i hi'
            refine ⟨p', r, r', e1, by rw [List.getElem?_set_ne (by omega)]; exact e2, e0, ?_, e4⟩
            intro j
            rw [e3 j]
            split
            · rw [List.getElem?_set_ne (by omega)]
            · rfl
          · obtain rfl : i = n := by omega
            refine ⟨p, row, row', by rw [← h1 i le_rfl]; exact hrow, ?_, h0, ?_, hr⟩
            · rw [List.getElem?_set_self (List.getElem?_eq_some_iff.1 hrow).1]
            · intro j
              split
              · rw [List.getElem?_set_ne (by omega)]
              · exact h1 j (by omega)

end

end Neorl
