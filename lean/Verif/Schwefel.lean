import Mathlib.Analysis.SpecialFunctions.Pow.Real
import Mathlib.Analysis.SpecialFunctions.Trigonometric.Bounds
import Mathlib.Analysis.Real.Pi.Bounds
import Mathlib.Tactic.NormNum.BigOperators

/-!
# How large `z * sin(sqrt(|z|))` gets on `[-500, 500]`

The term of Schwefel's function, used by `schwefel` in `neorl/benchmarks/classic.py` (93) and by
`modified_schwefel` in `neorl/benchmarks/tools/basic.py` (165-184).  No code is modelled here: these
are the numerical facts about the real function that the two models need.
-/

set_option linter.unusedSectionVars false
set_option linter.unusedVariables false

namespace Neorl.Schwefel

open Real

theorem complex_cos_bound8 {x : ℂ} (hx : ‖x‖ ≤ 1) :
    ‖Complex.cos x - (1 - x ^ 2 / 2 + x ^ 4 / 24 - x ^ 6 / 720)‖ ≤ ‖x‖ ^ 8 / 35840 :=
  calc
    ‖Complex.cos x - (1 - x ^ 2 / 2 + x ^ 4 / 24 - x ^ 6 / 720)‖ =
        ‖(Complex.exp (-x * Complex.I) - ∑ m ∈ Finset.range 8, (-x * Complex.I) ^ m / m.factorial) / 2 +
         (Complex.exp (x * Complex.I) - ∑ m ∈ Finset.range 8, (x * Complex.I) ^ m / m.factorial) / 2‖ := by
      congr 1
      simp only [Complex.cos, Finset.sum_range_succ, Finset.sum_range_zero, Nat.factorial]
      push_cast
      have h2 : Complex.I ^ 2 = -1 := Complex.I_sq
      have h4 : Complex.I ^ 4 = 1 := Complex.I_pow_four
      have h6 : Complex.I ^ 6 = -1 := by rw [show 6 = 4 + 2 by norm_num, pow_add, h4, h2]; ring
      ring_nf
      simp only [h2, h4, h6]
      ring
    _ ≤ ‖Complex.exp (-x * Complex.I) - ∑ m ∈ Finset.range 8, (-x * Complex.I) ^ m / m.factorial‖ / 2 +
        ‖Complex.exp (x * Complex.I) - ∑ m ∈ Finset.range 8, (x * Complex.I) ^ m / m.factorial‖ / 2 := by
      grw [norm_add_le]
      simp
    _ ≤ ‖-x * Complex.I‖ ^ 8 * (Nat.succ 8 * (Nat.factorial 8 * (8 : ℕ) : ℝ)⁻¹) / 2 +
        ‖x * Complex.I‖ ^ 8 * (Nat.succ 8 * (Nat.factorial 8 * (8 : ℕ) : ℝ)⁻¹) / 2 := by
      grw [Complex.exp_bound (by simpa) (by simp), Complex.exp_bound (by simpa) (by simp)]
    _ ≤ ‖x‖ ^ 8 / 35840 := by norm_num [Nat.factorial]; linarith

theorem cos_bound8 {x : ℝ} (hx : |x| ≤ 1) :
    |cos x - (1 - x ^ 2 / 2 + x ^ 4 / 24 - x ^ 6 / 720)| ≤ |x| ^ 8 / 35840 := by
  have h := complex_cos_bound8 (x := (x : ℂ)) (by simpa using hx)
  rw [← Complex.ofReal_cos] at h
  have e : ((cos x : ℝ) : ℂ) - (1 - (x : ℂ) ^ 2 / 2 + (x : ℂ) ^ 4 / 24 - (x : ℂ) ^ 6 / 720)
      = ((cos x - (1 - x ^ 2 / 2 + x ^ 4 / 24 - x ^ 6 / 720) : ℝ) : ℂ) := by push_cast; ring
  rw [e, Complex.norm_real, Complex.norm_real] at h
  simpa using h

theorem cos_le_quartic {x : ℝ} (hx : |x| ≤ 1) : cos x ≤ 1 - x ^ 2 / 2 + x ^ 4 / 24 := by
  have h := (abs_le.1 (cos_bound8 hx)).2
  have h1 : |x| ^ 8 = x ^ 8 := by rw [← abs_pow]; exact abs_of_nonneg (by positivity)
  have h2 : x ^ 2 ≤ 1 := by rw [← sq_abs]; exact pow_le_one₀ (abs_nonneg _) hx
  have h3 : x ^ 8 = x ^ 2 * x ^ 6 := by ring
  have h4 : 0 ≤ x ^ 6 := by positivity
  rw [h1, h3] at h
  nlinarith

theorem sin_shift (u : ℝ) : sin (13 * π / 2 + u) = cos u := by
  have : 13 * π / 2 + u = (u + π / 2) + (3 : ℕ) * (2 * π) := by push_cast; ring
  rw [this, sin_add_nat_mul_two_pi, sin_add_pi_div_two]

/-- The peak of the parabola-times-cosine near `13π/2`. -/
theorem peak {u : ℝ} (h0 : 0 ≤ u) (h1 : u ≤ 1) :
    (13 * π / 2 + u) ^ 2 * cos u ≤ 418.982889 := by
  have hpi := pi_lt_d20
  have hpos := pi_pos
  have hq : 0 ≤ 1 - u ^ 2 / 2 + u ^ 4 / 24 := by nlinarith [sq_nonneg u, sq_nonneg (u ^ 2)]
  have ha : (13 * π / 2 + u) ^ 2 * cos u ≤ (13 * π / 2 + u) ^ 2 * (1 - u ^ 2 / 2 + u ^ 4 / 24) :=
    mul_le_mul_of_nonneg_left (cos_le_quartic (by rw [abs_of_nonneg h0]; exact h1)) (sq_nonneg _)
  have hb : (13 * π / 2 + u) ^ 2 ≤ (20.42035224834 + u) ^ 2 := by
    have : 13 * π / 2 + u ≤ 20.42035224834 + u := by norm_num at hpi ⊢; linarith
    exact pow_le_pow_left₀ (by positivity) this 2
  have hc : (13 * π / 2 + u) ^ 2 * (1 - u ^ 2 / 2 + u ^ 4 / 24)
      ≤ (20.42035224834 + u) ^ 2 * (1 - u ^ 2 / 2 + u ^ 4 / 24) :=
    mul_le_mul_of_nonneg_right hb hq
  refine ha.trans (hc.trans ?_)
  have hv : ∃ v, u = 0.0971707 + v := ⟨u - 0.0971707, by ring⟩
  obtain ⟨v, rfl⟩ := hv
  have hv1 : -1 ≤ v := by norm_num at h0 ⊢; linarith
  have hv2 : v ≤ 1 := by norm_num at h1 ⊢; linarith
  have hv3 : v ^ 2 ≤ 1 := by nlinarith
  have hv4 : 0 ≤ v ^ 2 := sq_nonneg v
  have hv5 : 0 ≤ v ^ 4 := by positivity
  have k1 : -(v ^ 2) ≤ v ^ 3 ∧ v ^ 3 ≤ v ^ 2 := by constructor <;> nlinarith
  have k2 : v ^ 4 ≤ v ^ 2 := by nlinarith
  have k3 : -(v ^ 2) ≤ v ^ 5 ∧ v ^ 5 ≤ v ^ 2 := by
    have : v ^ 5 = v ^ 4 * v := by ring
    constructor <;> nlinarith
  have k4 : 0 ≤ v ^ 6 ∧ v ^ 6 ≤ v ^ 2 := by
    have : v ^ 6 = v ^ 4 * v ^ 2 := by ring
    constructor <;> nlinarith
  nlinarith [sq_nonneg (v - 0.000001), sq_nonneg (v + 0.000001)]

theorem sqrt_split {z : ℝ} (h0 : 0 ≤ z) : ∃ u, √z = 13 * π / 2 + u ∧ z = (13 * π / 2 + u) ^ 2 := by
  refine ⟨√z - 13 * π / 2, by ring, ?_⟩
  rw [show 13 * π / 2 + (√z - 13 * π / 2) = √z by ring, Real.sq_sqrt h0]

/-- On `[-500, 500]` no term exceeds `418.982889`. -/
theorem term_le {z : ℝ} (hz : |z| ≤ 500) : z * sin √|z| ≤ 418.982889 := by
  by_cases hs : |z| ≤ 418.98
  · have h1 : z * sin √|z| ≤ |z| * 1 := by
      refine (le_abs_self _).trans ?_
      rw [abs_mul]
      exact mul_le_mul_of_nonneg_left (abs_sin_le_one _) (abs_nonneg _)
    norm_num at hs ⊢
    linarith
  · obtain ⟨u, hu, hsq⟩ := sqrt_split (abs_nonneg z)
    have hpi := pi_lt_d20
    have hpi' := pi_gt_d20
    have hnn := Real.sqrt_nonneg |z|
    have hlo : 0 ≤ u := by
      by_contra h
      have h1 : 13 * π / 2 + u ≤ 20.43 := by norm_num at hpi ⊢; linarith
      have h2 : |z| ≤ 20.43 ^ 2 := by
        rw [hsq]; exact pow_le_pow_left₀ (by rw [← hu]; exact hnn) h1 2
      norm_num at h2 hs
      linarith
    have hhi : u ≤ 1.95 := by
      by_contra h
      have h1 : 22.37 ≤ 13 * π / 2 + u := by norm_num at hpi' h ⊢; linarith
      have h2 : (22.37 : ℝ) ^ 2 ≤ |z| := by
        rw [hsq]; exact pow_le_pow_left₀ (by norm_num) h1 2
      norm_num at h2
      linarith
    rw [hu, sin_shift]
    rcases le_or_gt 0 z with h0 | h0
    · rw [abs_of_nonneg h0] at hsq hz
      by_cases h1 : u ≤ 1
      · rw [hsq]; exact peak hlo h1
      · have h2 : cos u ≤ cos 1 := cos_le_cos_of_nonneg_of_le_pi (by norm_num)
          (by norm_num at hpi' hhi ⊢; linarith) (not_le.1 h1).le
        have h3 := Real.cos_one_le
        norm_num
        nlinarith
    · have hc : -0.5 ≤ cos u := by
        rw [← sin_pi_div_two_sub]
        have h2 : sin (u - π / 2) ≤ 0.5 := by
          by_cases h3 : 0 ≤ u - π / 2
          · have := sin_le h3; norm_num at hpi' hhi ⊢; linarith
          · have := sin_nonpos_of_nonpos_of_neg_pi_le (x := u - π / 2) (by linarith)
              (by linarith [pi_pos])
            norm_num; linarith
        rw [show π / 2 - u = -(u - π / 2) by ring, sin_neg]
        linarith
      have : -500 ≤ z := (abs_le.1 hz).1
      norm_num at hc ⊢
      nlinarith

/-- Near the documented minimiser the term is within `3e-6` of that bound. -/
theorem term_ge {z : ℝ} (h1 : 420.968746 ≤ z) (h2 : z ≤ 420.968747) :
    418.982886 ≤ z * sin √|z| := by
  have h0 : 0 ≤ z := by norm_num at h1; linarith
  rw [abs_of_nonneg h0]
  obtain ⟨u, hu, hsq⟩ := sqrt_split h0
  have hpi := pi_lt_d20
  have hpi' := pi_gt_d20
  have hnn := Real.sqrt_nonneg z
  have hlo : 0 ≤ u := by
    by_contra h
    have h1' : 13 * π / 2 + u ≤ 20.43 := by norm_num at hpi ⊢; linarith
    have h2 : z ≤ 20.43 ^ 2 := by
      rw [hsq]; exact pow_le_pow_left₀ (by rw [← hu]; exact hnn) h1' 2
    norm_num at h2 h1
    linarith
  have hhi : u ≤ 0.09717068 := by
    by_contra h
    have h1' : 20.517522928 ≤ 13 * π / 2 + u := by norm_num at hpi' h ⊢; linarith
    have h3 : (20.517522928 : ℝ) ^ 2 ≤ z := by
      rw [hsq]; exact pow_le_pow_left₀ (by norm_num) h1' 2
    norm_num at h3 h2
    linarith
  rw [hu, sin_shift]
  have habs : |u| ≤ 0.09717068 := by rw [abs_of_nonneg hlo]; exact hhi
  have hb := (abs_le.1 (cos_bound8 (x := u) (habs.trans (by norm_num)))).1
  rw [abs_of_nonneg hlo] at hb
  have e2 : u ^ 2 ≤ 0.09717068 ^ 2 := pow_le_pow_left₀ hlo hhi 2
  have e8 : u ^ 8 ≤ 0.09717068 ^ 8 := pow_le_pow_left₀ hlo hhi 8
  have e6 : u ^ 6 ≤ 0.09717068 ^ 6 := pow_le_pow_left₀ hlo hhi 6
  have hq : 1 - u ^ 2 / 2 + u ^ 4 / 24 ≥ 1 - 0.09717068 ^ 2 / 2 + 0.09717068 ^ 4 / 24 := by
    have : u ^ 4 = u ^ 2 * u ^ 2 := by ring
    nlinarith [sq_nonneg u]
  have hc : 0.99528263 ≤ cos u := by
    norm_num at e2 e8 e6 hq hb ⊢
    linarith
  norm_num at hc h1 ⊢
  nlinarith

end Neorl.Schwefel
