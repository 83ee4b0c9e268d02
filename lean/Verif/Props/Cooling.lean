import Verif.Cooling
import Mathlib.Analysis.Complex.ExponentialBounds

/-!
# C61: cooling schedules
-/

namespace Neorl.Cooling

/-- C61 (fast): the schedule starts at `Tmax`, ends at `Tmin` after `steps` steps, never increases and stays between the two. -/
theorem C61_fast {Tmax Tmin : ℝ} (h0 : 0 < Tmin) (h : Tmin ≤ Tmax) {steps : ℕ} (hs : 0 < steps) :
    fast Tmax Tmin steps 0 = Tmax ∧ fast Tmax Tmin steps steps = Tmin ∧
    (∀ i j, i ≤ j → fast Tmax Tmin steps j ≤ fast Tmax Tmin steps i) ∧
    (∀ i ≤ steps, Tmin ≤ fast Tmax Tmin steps i ∧ fast Tmax Tmin steps i ≤ Tmax) := by
  have hT : 0 < Tmax := h0.trans_le h
  have hsR : (0 : ℝ) < steps := by exact_mod_cast hs
  have hlog : 0 ≤ Real.log (Tmax / Tmin) := Real.log_nonneg (by rw [le_div_iff₀ h0]; linarith)
  have e0 : fast Tmax Tmin steps 0 = Tmax := by simp [fast]
  have e1 : fast Tmax Tmin steps steps = Tmin := by
    unfold fast
    rw [mul_div_assoc, div_self hsR.ne', mul_one, Real.exp_neg, Real.exp_log (div_pos hT h0)]
    field_simp
  have hm : ∀ i j, i ≤ j → fast Tmax Tmin steps j ≤ fast Tmax Tmin steps i := by
    intro i j hij
    unfold fast
    apply mul_le_mul_of_nonneg_left _ hT.le
    apply Real.exp_le_exp.2
    have : (i : ℝ) ≤ j := by exact_mod_cast hij
    apply div_le_div_of_nonneg_right _ hsR.le
    nlinarith
  refine ⟨e0, e1, hm, ?_⟩
  intro i hi
  exact ⟨by have := hm i steps hi; rwa [e1] at this, by have := hm 0 i (Nat.zero_le _); rwa [e0] at this⟩

/-- C61 (fast, geometric): consecutive temperatures have the constant ratio `(Tmin/Tmax)^(1/steps)`: after `steps` multiplications by it
`Tmax` has become `Tmin`. -/
theorem C61_fast_geometric {Tmax Tmin : ℝ} (h0 : 0 < Tmin) (h : Tmin ≤ Tmax) {steps : ℕ} (hs : 0 < steps) :
    ∃ q : ℝ, 0 < q ∧ q ≤ 1 ∧ q ^ steps = Tmin / Tmax ∧ ∀ i, fast Tmax Tmin steps (i + 1) = q * fast Tmax Tmin steps i := by
  have hT : 0 < Tmax := h0.trans_le h
  have hsR : (0 : ℝ) < steps := by exact_mod_cast hs
  have hlog : 0 ≤ Real.log (Tmax / Tmin) := Real.log_nonneg (by rw [le_div_iff₀ h0]; linarith)
  refine ⟨Real.exp (-Real.log (Tmax / Tmin) / steps), Real.exp_pos _, ?_, ?_, ?_⟩
  · apply Real.exp_le_one_iff.2
    apply div_nonpos_of_nonpos_of_nonneg _ hsR.le
    linarith
  · rw [← Real.exp_nat_mul, mul_div_cancel₀ _ hsR.ne', Real.exp_neg, Real.exp_log (div_pos hT h0), inv_div]
  · intro i
    unfold fast
    rw [mul_left_comm, ← Real.exp_add]
    congr 2
    push_cast
    field_simp
    ring

/-- C61 (cauchy): positive, decreasing, at most `Tmax`, and eventually below any positive threshold. -/
theorem C61_cauchy {Tmax : ℝ} (hT : 0 < Tmax) :
    (∀ i, 0 < cauchy Tmax i ∧ cauchy Tmax i ≤ Tmax) ∧ (∀ i j, i < j → cauchy Tmax j < cauchy Tmax i) ∧
    (∀ ε > 0, ∃ N, ∀ i ≥ N, cauchy Tmax i < ε) := by
  have hp : ∀ i : ℕ, (0 : ℝ) < (i : ℝ) + 1 := fun i => by positivity
  refine ⟨fun i => ⟨div_pos hT (hp i), ?_⟩, fun i j hij => ?_, fun ε hε => ?_⟩
  · unfold cauchy
    rw [div_le_iff₀ (hp i)]
    nlinarith [Nat.cast_nonneg (α := ℝ) i]
  · unfold cauchy
    apply div_lt_div_of_pos_left hT (hp i)
    have : (i : ℝ) < j := by exact_mod_cast hij
    linarith
  · obtain ⟨N, hN⟩ := exists_nat_gt (Tmax / ε)
    refine ⟨N, fun i hi => ?_⟩
    unfold cauchy
    rw [div_lt_iff₀ (hp i)]
    rw [div_lt_iff₀ hε] at hN
    have : (N : ℝ) ≤ i := by exact_mod_cast hi
    nlinarith

/-- C61 (boltzmann): from step 1 on (the first step of a chain) the temperature is positive and decreasing; the first one is *above*
`Tmax` because `log 2 < 1`, and step 2 is the first at or below it. -/
theorem C61_boltzmann {Tmax : ℝ} (hT : 0 < Tmax) :
    (∀ i ≥ 1, 0 < boltzmann Tmax i) ∧ (∀ i j, 1 ≤ i → i < j → boltzmann Tmax j < boltzmann Tmax i) ∧
    Tmax < boltzmann Tmax 1 ∧ ∀ i ≥ 2, boltzmann Tmax i < Tmax := by
  have hl : ∀ i : ℕ, 1 ≤ i → 0 < Real.log ((i : ℝ) + 1) := by
    intro i hi
    apply Real.log_pos
    have : (1 : ℝ) ≤ i := by exact_mod_cast hi
    linarith
  have he : Real.exp 1 < 3 := Real.exp_one_lt_d9.trans (by norm_num)
  have he2 : 2 < Real.exp 1 := lt_trans (by norm_num) Real.exp_one_gt_d9
  refine ⟨fun i hi => div_pos hT (hl i hi), fun i j hi hij => ?_, ?_, fun i hi => ?_⟩
  · unfold boltzmann
    apply div_lt_div_of_pos_left hT (hl i hi)
    apply Real.log_lt_log
    · positivity
    · have : (i : ℝ) < j := by exact_mod_cast hij
      linarith
  · unfold boltzmann
    have h1 := hl 1 le_rfl
    rw [lt_div_iff₀ h1]
    have : Real.log ((1 : ℕ) + 1 : ℝ) < 1 := by
      rw [Real.log_lt_iff_lt_exp (by positivity)]
      push_cast; linarith
    nlinarith
  · unfold boltzmann
    rw [div_lt_iff₀ (hl i (by omega))]
    have : 1 < Real.log ((i : ℝ) + 1) := by
      rw [Real.lt_log_iff_exp_lt (by positivity)]
      have : (2 : ℝ) ≤ i := by exact_mod_cast hi
      linarith
    nlinarith

/-- C61 (equilibrium): for non-negative rates the equilibrium update never raises a temperature that is at least `Tmin`, never goes below
`Tmin`, and keeps the temperature unchanged when no move (or every move, as a fraction) was accepted.  A mean rate of exactly 2 divides by
zero in the code and is excluded. -/
theorem C61_equilibrium {Tmin lmbda a sigma T : ℝ} (hm : 0 < Tmin) (hT : Tmin ≤ T) (hl : 0 ≤ lmbda) (ha : 0 ≤ a) (ha2 : a ≠ 2) (hs : 0 < sigma) :
    Tmin ≤ equilibrium Tmin lmbda a sigma T ∧ equilibrium Tmin lmbda a sigma T ≤ T ∧
    (a = 0 ∨ a = 1 → equilibrium Tmin lmbda a sigma T = T) := by
  have hTp : 0 < T := hm.trans_le hT
  unfold equilibrium
  simp only
  refine ⟨le_max_right _ _, max_le ?_ hT, ?_⟩
  · have hg : 0 ≤ lmbda * (1 / sigma) * (T / sigma) ^ 2 * (4 * a * (1 - a) ^ 2 / (2 - a) ^ 2) := by positivity
    rw [div_le_iff₀ (by positivity)]
    have : T * (1 / T) = 1 := by field_simp
    nlinarith
  · rintro (h | h) <;> subst h <;> simp [hT]

/-- C61 (acceptance number): for a positive temperature a non-improving move has an acceptance number in `(0, 1]`, an improving one above
one; the number grows with the energy difference and, for worsening moves, with the temperature. -/
theorem C61_acceptance {dE T : ℝ} (hT : 0 < T) :
    (dE ≤ 0 → 0 < accP dE T ∧ accP dE T ≤ 1) ∧ (0 < dE → 1 < accP dE T) ∧
    (∀ dE', dE < dE' → accP dE T < accP dE' T) ∧ (∀ T', dE < 0 → T < T' → accP dE T < accP dE T') := by
  unfold accP
  refine ⟨fun h => ⟨Real.exp_pos _, Real.exp_le_one_iff.2 (div_nonpos_of_nonpos_of_nonneg h hT.le)⟩, fun h => ?_, fun dE' h => ?_,
    fun T' h h' => ?_⟩
  · exact Real.one_lt_exp_iff.2 (div_pos h hT)
  · exact Real.exp_lt_exp.2 (div_lt_div_of_pos_right h hT)
  · apply Real.exp_lt_exp.2
    rw [div_lt_div_iff₀ hT (hT.trans h')]
    nlinarith

/-- The hypotheses are met by the defaults of the constructor. -/
example : fast 10000 1 100 0 = 10000 ∧ fast 10000 1 100 100 = 1 :=
  ⟨(C61_fast (by norm_num) (by norm_num) (by norm_num)).1, (C61_fast (by norm_num) (by norm_num) (by norm_num)).2.1⟩

end Neorl.Cooling
