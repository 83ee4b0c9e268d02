import Verif.PGLoss
import Verif.Props.Dist
import Verif.Props.PPOLoss
import Verif.Props.Schedule
import Mathlib.Analysis.SpecialFunctions.ExpDeriv
import Mathlib.Analysis.SpecialFunctions.Log.Deriv

/-!
# C124: the losses and training steps of A2C and ACKTR
-/

set_option linter.unusedSectionVars false
set_option linter.unusedVariables false

namespace Neorl.PGLoss

open Real Neorl.PPOLoss Neorl.Schedule

variable {n m p : ℕ}

/-! ### Derivatives of the categorical policy -/

/-- The probability of action `k` under the logits `l`. -/
noncomputable def prob (l : Fin m → ℝ) (k : Fin m) : ℝ := exp (l k) / ∑ j, exp (l j)

theorem prob_eq (l : Fin m → ℝ) (k : Fin m) : prob l k = Dist.softmax l k := rfl

theorem sumexp_pos (l : Fin m → ℝ) (k : Fin m) : 0 < ∑ j, exp (l j) := Finset.sum_pos (fun _ _ => exp_pos _) ⟨k, Finset.mem_univ k⟩

theorem hasDeriv_logsum (l D : Fin m → ℝ) (k : Fin m) :
    HasDerivAt (fun t : ℝ => log (∑ j, exp (l j + t * D j))) (∑ j, prob l j * D j) 0 := by
  have h1 : ∀ j ∈ (Finset.univ : Finset (Fin m)), HasDerivAt (fun t : ℝ => exp (l j + t * D j)) (exp (l j) * D j) 0 := by
    intro j _
    have h := (((hasDerivAt_id (0 : ℝ)).mul_const (D j)).const_add (l j)).exp
    simpa using h
  have h2 := HasDerivAt.fun_sum h1
  have h3 : HasDerivAt (fun t : ℝ => log (∑ j, exp (l j + t * D j))) ((∑ j, exp (l j) * D j) / (∑ j, exp (l j + 0 * D j))) 0 :=
    h2.log (by simpa using (sumexp_pos l k).ne')
  refine h3.congr_deriv ?_
  simp only [zero_mul, add_zero]
  rw [Finset.sum_div]
  exact Finset.sum_congr rfl fun j _ => by unfold prob; ring

/-- Derivative of the negative log probability along a direction. -/
theorem hasDeriv_neglogp (l D : Fin m → ℝ) (a : Fin m) :
    HasDerivAt (fun t : ℝ => Dist.catNeglogp (fun k => l k + t * D k) (a : ℕ)) (∑ k, (prob l k - if k = a then 1 else 0) * D k) 0 := by
  have e : (fun t : ℝ => Dist.catNeglogp (fun k => l k + t * D k) (a : ℕ)) = fun t => log (∑ j, exp (l j + t * D j)) - (l a + t * D a) := by
    funext t
    have := Dist.catNeglogp_eq (fun k => l k + t * D k) a
    rw [Dist.log_softmax] at this
    rw [this]
    ring
  rw [e]
  have h2 : HasDerivAt (fun t : ℝ => l a + t * D a) (D a) 0 := by
    simpa using ((hasDerivAt_id (0 : ℝ)).mul_const (D a)).const_add (l a)
  refine ((hasDeriv_logsum l D a).fun_sub h2).congr_deriv ?_
  simp only [sub_mul, Finset.sum_sub_distrib, ite_mul, one_mul, zero_mul, Finset.sum_ite_eq', Finset.mem_univ, if_true]

theorem entropy_logsum (l : Fin m → ℝ) : Dist.catEntropy l = ∑ k, prob l k * (log (∑ j, exp (l j)) - l k) := by
  unfold Dist.catEntropy
  refine Finset.sum_congr rfl fun k _ => ?_
  rw [Dist.p0_eq, prob_eq]
  have h1 := Dist.log_softmax l k
  have h2 := Dist.log_softmax_shifted l k
  congr 1
  linarith

theorem hasDeriv_prob (l D : Fin m → ℝ) (k : Fin m) :
    HasDerivAt (fun t : ℝ => prob (fun k => l k + t * D k) k) (prob l k * (D k - ∑ j, prob l j * D j)) 0 := by
  have e : (fun t : ℝ => prob (fun k => l k + t * D k) k) = fun t => exp (l k + t * D k - log (∑ j, exp (l j + t * D j))) := by
    funext t
    rw [exp_sub, exp_log (sumexp_pos _ k)]
    rfl
  rw [e]
  have h2 : HasDerivAt (fun t : ℝ => l k + t * D k) (D k) 0 := by
    simpa using ((hasDerivAt_id (0 : ℝ)).mul_const (D k)).const_add (l k)
  refine ((h2.fun_sub (hasDeriv_logsum l D k)).exp).congr_deriv ?_
  congr 1
  simp only [zero_mul, add_zero]
  rw [exp_sub, exp_log (sumexp_pos l k)]
  rfl

theorem log_prob (l : Fin m → ℝ) (k : Fin m) : log (prob l k) = l k - log (∑ j, exp (l j)) := Dist.log_softmax l k

/-- Derivative of the entropy along a direction. -/
theorem hasDeriv_entropy (l D : Fin m → ℝ) :
    HasDerivAt (fun t : ℝ => Dist.catEntropy fun k => l k + t * D k) (-∑ k, prob l k * (log (prob l k) + Dist.catEntropy l) * D k) 0 := by
  rcases Nat.eq_zero_or_pos m with rfl | hm
  · simp only [Dist.catEntropy, Finset.univ_eq_empty, Finset.sum_empty, neg_zero]
    exact hasDerivAt_const _ _
  simp only [entropy_logsum]
  have h1 : ∀ k ∈ (Finset.univ : Finset (Fin m)),
      HasDerivAt (fun t : ℝ => prob (fun k => l k + t * D k) k * (log (∑ j, exp (l j + t * D j)) - (l k + t * D k)))
        (prob l k * (D k - ∑ j, prob l j * D j) * (log (∑ j, exp (l j)) - l k) + prob l k * ((∑ j, prob l j * D j) - D k)) 0 := by
    intro k _
    have h2 : HasDerivAt (fun t : ℝ => l k + t * D k) (D k) 0 := by
      simpa using ((hasDerivAt_id (0 : ℝ)).mul_const (D k)).const_add (l k)
    have h := (hasDeriv_prob l D k).fun_mul ((hasDeriv_logsum l D k).fun_sub h2)
    simpa using h
  refine (HasDerivAt.fun_sum h1).congr_deriv ?_
  set S := ∑ j, prob l j * D j with hS
  set L := log (∑ j, exp (l j)) with hL
  have hp : ∑ k, prob l k = 1 := Dist.softmax_sum l hm
  have hlp : ∀ k, log (prob l k) = l k - L := fun k => log_prob l k
  simp only [hlp]
  set H := ∑ k, prob l k * (L - l k) with hH
  have e1 : ∀ k, prob l k * (l k - L + H) * D k = -(prob l k * (L - l k) * D k) + H * (prob l k * D k) := fun k => by ring
  have e2 : ∀ k, prob l k * (D k - S) * (L - l k) + prob l k * (S - D k) =
      prob l k * (L - l k) * D k - S * (prob l k * (L - l k)) + S * prob l k - prob l k * D k := fun k => by ring
  simp only [e1, e2, Finset.sum_add_distrib, Finset.sum_sub_distrib, Finset.sum_neg_distrib, ← Finset.mul_sum, hp, ← hS, ← hH]
  ring

/-! ### The gradient -/

theorem hasDeriv_mean {f : Fin n → ℝ → ℝ} {f' : Fin n → ℝ} (h : ∀ i, HasDerivAt (f i) (f' i) 0) :
    HasDerivAt (fun t => mean fun i => f i t) (mean f') 0 :=
  (HasDerivAt.fun_sum fun i _ => h i).div_const _

theorem hasDeriv_sq (v r E : ℝ) : HasDerivAt (fun t : ℝ => (v + t * E - r) ^ 2) (2 * (v - r) * E) 0 := by
  have h := ((((hasDerivAt_id (0 : ℝ)).mul_const E).const_add v).sub_const r).fun_pow 2
  simpa using h

theorem hasDeriv_a2c {entCoef vfCoef : ℝ} {advs rewards : Fin n → ℝ} {nlp ent val : Fin n → ℝ → ℝ} {nlp' ent' val' : Fin n → ℝ}
    (h1 : ∀ i, HasDerivAt (nlp i) (nlp' i) 0) (h2 : ∀ i, HasDerivAt (ent i) (ent' i) 0) (h3 : ∀ i, HasDerivAt (fun t => (val i t - rewards i) ^ 2) (val' i) 0) :
    HasDerivAt (fun t => a2cLoss entCoef vfCoef advs rewards (fun i => nlp i t) (fun i => ent i t) fun i => val i t)
      (1 / n * ∑ i, (advs i * nlp' i - ent' i * entCoef + val' i * vfCoef)) 0 := by
  have ha := hasDeriv_mean fun i => (h1 i).const_mul (advs i)
  have hb := (hasDeriv_mean h2).mul_const entCoef
  have hc := (hasDeriv_mean h3).mul_const vfCoef
  refine ((ha.fun_sub hb).fun_add hc).congr_deriv ?_
  unfold mean
  simp only [Finset.sum_add_distrib, Finset.sum_sub_distrib, ← Finset.sum_mul]
  ring

/-- **C124.** The gradient of the loss of a categorical policy.  Along any direction `D` of the logits and `E` of the values the derivative is the sum of `D` and `E` times the gradient
entries: for the logit of action `k` in sample `i` `(A_i (p_k - [k = a_i]) + ent_coef p_k (log p_k + H_i)) / n`, for the value `2 vf_coef (v_i - r_i) / n`. -/
theorem C124_gradient (entCoef vfCoef : ℝ) (A r : Fin n → ℝ) (a : Fin n → Fin m) (l D : Fin n → Fin m → ℝ) (v E : Fin n → ℝ) :
    HasDerivAt (fun t : ℝ => catLoss entCoef vfCoef A r a (fun i k => l i k + t * D i k) fun i => v i + t * E i)
      ((∑ i, ∑ k, (A i * (exp (l i k) / (∑ j, exp (l i j)) - if k = a i then 1 else 0) +
          entCoef * (exp (l i k) / (∑ j, exp (l i j)) * (log (exp (l i k) / ∑ j, exp (l i j)) + Dist.catEntropy (l i)))) / n * D i k) +
        ∑ i, 2 * vfCoef * (v i - r i) / n * E i) 0 := by
  unfold catLoss
  refine (hasDeriv_a2c (fun i => hasDeriv_neglogp (l i) (D i) (a i)) (fun i => hasDeriv_entropy (l i) (D i)) (fun i => hasDeriv_sq (v i) (r i) (E i))).congr_deriv ?_
  rw [← Finset.sum_add_distrib, Finset.mul_sum]
  refine Finset.sum_congr rfl fun i _ => ?_
  rw [mul_add (1 / (n : ℝ)), neg_mul, sub_neg_eq_add, Finset.mul_sum (a := A i), Finset.sum_mul, ← Finset.sum_add_distrib, Finset.mul_sum]
  congr 1
  · refine Finset.sum_congr rfl fun k _ => ?_
    unfold prob
    ring
  · ring

/-- **C124.** The gradient for a diagonal Gaussian policy: `- A_i (x - μ) / σ² / n` for a mean, `(A_i (1 - ((x - μ) / σ)²) - ent_coef) / n` for a log standard deviation. -/
theorem C124_gaussian (entCoef vfCoef : ℝ) (A r : Fin n → ℝ) (a : Fin n → Fin m → ℝ) (f D : Fin n → Fin (m + m) → ℝ) (v E : Fin n → ℝ) :
    HasDerivAt (fun t : ℝ => gaussLoss entCoef vfCoef A r a (fun i k => f i k + t * D i k) fun i => v i + t * E i)
      ((∑ i, ∑ k, (-(A i * ((a i k - f i (Fin.castAdd m k)) / exp (f i (Fin.natAdd m k)) ^ 2)) / n * D i (Fin.castAdd m k) +
          (A i * (1 - ((a i k - f i (Fin.castAdd m k)) / exp (f i (Fin.natAdd m k))) ^ 2) - entCoef) / n * D i (Fin.natAdd m k))) +
        ∑ i, 2 * vfCoef * (v i - r i) / n * E i) 0 := by
  have hnlp : ∀ i, HasDerivAt (fun t : ℝ => Dist.gaussNeglogp (fun k => f i k + t * D i k) (a i))
      (∑ k, (-((a i k - f i (Fin.castAdd m k)) / exp (f i (Fin.natAdd m k)) ^ 2) * D i (Fin.castAdd m k) +
        (1 - ((a i k - f i (Fin.castAdd m k)) / exp (f i (Fin.natAdd m k))) ^ 2) * D i (Fin.natAdd m k))) 0 := by
    intro i
    have hk : ∀ k ∈ (Finset.univ : Finset (Fin m)), HasDerivAt
        (fun t : ℝ => ((a i k - (f i (Fin.castAdd m k) + t * D i (Fin.castAdd m k))) / exp (f i (Fin.natAdd m k) + t * D i (Fin.natAdd m k))) ^ 2)
        (2 * (-((a i k - f i (Fin.castAdd m k)) / exp (f i (Fin.natAdd m k)) ^ 2) * D i (Fin.castAdd m k) +
          (-((a i k - f i (Fin.castAdd m k)) / exp (f i (Fin.natAdd m k))) ^ 2) * D i (Fin.natAdd m k))) 0 := by
      intro k _
      have h1 := ((((hasDerivAt_id (0 : ℝ)).mul_const (D i (Fin.castAdd m k))).const_add (f i (Fin.castAdd m k))).const_sub (a i k))
      have h2 := (((hasDerivAt_id (0 : ℝ)).mul_const (D i (Fin.natAdd m k))).const_add (f i (Fin.natAdd m k))).exp
      have h := (h1.fun_div h2 (exp_pos _).ne').fun_pow 2
      refine h.congr_deriv ?_
      simp only [id, zero_mul, add_zero, one_mul, show 2 - 1 = 1 from rfl, pow_one, Nat.cast_ofNat]
      have hx := (exp_pos (f i (Fin.natAdd m k))).ne'
      field_simp
      ring
    have hs : ∀ k ∈ (Finset.univ : Finset (Fin m)), HasDerivAt (fun t : ℝ => f i (Fin.natAdd m k) + t * D i (Fin.natAdd m k)) (D i (Fin.natAdd m k)) 0 := by
      intro k _
      simpa using ((hasDerivAt_id (0 : ℝ)).mul_const (D i (Fin.natAdd m k))).const_add (f i (Fin.natAdd m k))
    have h := (((HasDerivAt.fun_sum hk).const_mul 0.5).add_const (0.5 * log (2 * π) * m)).fun_add (HasDerivAt.fun_sum hs)
    refine h.congr_deriv ?_
    rw [Finset.mul_sum, ← Finset.sum_add_distrib]
    refine Finset.sum_congr rfl fun k _ => ?_
    norm_num
    ring
  have hent : ∀ i, HasDerivAt (fun t : ℝ => Dist.gaussEntropy fun k => f i k + t * D i k) (∑ k, D i (Fin.natAdd m k)) 0 := by
    intro i
    refine HasDerivAt.fun_sum fun k _ => ?_
    have := (((hasDerivAt_id (0 : ℝ)).mul_const (D i (Fin.natAdd m k))).const_add (f i (Fin.natAdd m k))).add_const (0.5 * log (2 * π * exp 1))
    exact this.congr_deriv (by simp)
  refine (hasDeriv_a2c hnlp hent (fun i => hasDeriv_sq (v i) (r i) (E i))).congr_deriv ?_
  rw [← Finset.sum_add_distrib, Finset.mul_sum]
  refine Finset.sum_congr rfl fun i _ => ?_
  rw [mul_add (1 / (n : ℝ)), Finset.mul_sum (a := A i), Finset.sum_mul, ← Finset.sum_sub_distrib, Finset.mul_sum]
  congr 1
  · refine Finset.sum_congr rfl fun k _ => ?_
    ring
  · ring

/-- **C124.** ACKTR trains on the same loss as A2C; what its `_train_step` returns as the policy loss includes the entropy bonus, that of A2C does not.  Without the bonus they agree. -/
theorem C124_same_loss (entCoef vfCoef : ℝ) (A r nlp ent v : Fin n → ℝ) :
    acktrLoss entCoef vfCoef A r nlp ent v = a2cLoss entCoef vfCoef A r nlp ent v ∧
    pg A nlp - acktrPg entCoef A nlp ent = entCoef * ((∑ i, ent i) / n) ∧ acktrPg 0 A nlp ent = (∑ i, A i * nlp i) / n := by
  unfold acktrLoss acktrPg a2cLoss pg mean
  refine ⟨by ring, by ring, by ring⟩

/-- **C124.** A baseline changes nothing on average: if the action of one sample is drawn from the policy itself, the expected gradient with respect to any logit of a constant advantage `b` is zero. -/
theorem C124_baseline (l : Fin m → ℝ) (b : ℝ) (k : Fin m) :
    ∑ a : Fin m, exp (l a) / (∑ j, exp (l j)) * (b * (exp (l k) / (∑ j, exp (l j)) - if k = a then 1 else 0)) = 0 := by
  have hm : 0 < m := Nat.pos_of_ne_zero (by rintro rfl; exact k.elim0)
  have hp : ∑ a, exp (l a) / (∑ j, exp (l j)) = 1 := Dist.softmax_sum l hm
  have e : ∀ a : Fin m, exp (l a) / (∑ j, exp (l j)) * (b * (exp (l k) / (∑ j, exp (l j)) - if k = a then 1 else 0)) =
      b * (exp (l k) / (∑ j, exp (l j))) * (exp (l a) / (∑ j, exp (l j))) - b * (if k = a then exp (l a) / (∑ j, exp (l j)) else 0) := by
    intro a
    split_ifs <;> ring
  simp only [e, Finset.sum_sub_distrib, ← Finset.mul_sum, hp, Finset.sum_ite_eq, Finset.mem_univ, if_true]
  ring

/-- **C124.** The direction of learning: moving the logits of a sample against the gradient of the policy term changes the log probability of the taken action at the rate `A |onehot - p|² / n`.  So
the action becomes more likely if its advantage is positive, less likely if it is negative (for a policy with at least two actions). -/
theorem C124_direction (hn : 0 < n) (A : ℝ) (l : Fin m → ℝ) (a : Fin m) :
    let g := fun k => A * (exp (l k) / (∑ j, exp (l j)) - if k = a then 1 else 0) / n
    let c := ∑ k, ((if k = a then 1 else 0) - exp (l k) / (∑ j, exp (l j))) ^ 2 / n
    HasDerivAt (fun t : ℝ => -Dist.catNeglogp (fun k => l k + t * -g k) (a : ℕ)) (A * c) 0 ∧ (2 ≤ m → 0 < c) := by
  intro g c
  constructor
  · refine (hasDeriv_neglogp l (fun k => -g k) a).fun_neg.congr_deriv ?_
    rw [← Finset.sum_neg_distrib, Finset.mul_sum]
    refine Finset.sum_congr rfl fun k _ => ?_
    show -((prob l k - if k = a then 1 else 0) * -(A * (prob l k - if k = a then 1 else 0) / n)) = A * (((if k = a then 1 else 0) - prob l k) ^ 2 / n)
    ring
  · intro hm
    obtain ⟨b, hb⟩ : ∃ b : Fin m, b ≠ a := by
      by_contra h
      push Not at h
      have h0 := h ⟨0, by omega⟩
      have h1 := h ⟨1, by omega⟩
      have := h0.trans h1.symm
      simp at this
    refine Finset.sum_pos' (fun k _ => by positivity) ⟨b, Finset.mem_univ b, ?_⟩
    rw [if_neg hb]
    have := div_pos (exp_pos (l b)) (sumexp_pos l b)
    have hn' : (0 : ℝ) < n := Nat.cast_pos.2 hn
    have h2 : 0 < (0 - exp (l b) / ∑ j, exp (l j)) ^ 2 := by
      have : 0 - exp (l b) / ∑ j, exp (l j) ≠ 0 := by linarith
      positivity
    positivity

/-- **C124.** The entropy bonus pushes towards equal probabilities and nowhere else: its gradient vanishes exactly at equal logits. -/
theorem C124_bonus (hm : 0 < m) (l : Fin m → ℝ) :
    (∀ k, exp (l k) / (∑ j, exp (l j)) * (log (exp (l k) / ∑ j, exp (l j)) + Dist.catEntropy l) = 0) ↔ ∀ i j, l i = l j := by
  constructor
  · intro h i j
    have hk : ∀ k, l k = log (∑ j, exp (l j)) - Dist.catEntropy l := by
      intro k
      rcases mul_eq_zero.1 (h k) with h0 | h0
      · exact absurd h0 (div_pos (exp_pos (l k)) (sumexp_pos l k)).ne'
      · have := log_prob l k
        unfold prob at this
        linarith
    rw [hk i, hk j]
  · intro h k
    have e : Dist.catEntropy l = log m := (Dist.C102_cat_entropy l hm).2.2.2.2 h
    have hs : ∑ j, exp (l j) = m * exp (l k) := by
      rw [Finset.sum_congr rfl fun j _ => by rw [h j k]]
      simp
    have hm' : (m : ℝ) ≠ 0 := Nat.cast_ne_zero.2 hm.ne'
    have : exp (l k) / (m * exp (l k)) = 1 / m := by
      field_simp
    rw [e, hs, this, log_div one_ne_zero hm', log_one]
    simp

/-- **C124.** The value loss is the mean squared error: never negative, and zero only for perfect predictions. -/
theorem C124_value (hn : 0 < n) (v r : Fin n → ℝ) : mse v r = (∑ i, (v i - r i) ^ 2) / n ∧ 0 ≤ mse v r ∧ (mse v r = 0 ↔ ∀ i, v i = r i) := by
  have hn' : (0 : ℝ) < n := Nat.cast_pos.2 hn
  refine ⟨rfl, div_nonneg (Finset.sum_nonneg fun i _ => sq_nonneg _) hn'.le, ?_⟩
  unfold mse mean
  rw [div_eq_zero_iff, or_iff_left hn'.ne', Finset.sum_eq_zero_iff_of_nonneg fun i _ => sq_nonneg _]
  simp [sub_eq_zero]

/-- **C124.** The loss sees the logits up to a constant per sample only. -/
theorem C124_shift (entCoef vfCoef : ℝ) (A r : Fin n → ℝ) (a : Fin n → Fin m) (l : Fin n → Fin m → ℝ) (v : Fin n → ℝ) (c : Fin n → ℝ) :
    catLoss entCoef vfCoef A r a (fun i k => l i k + c i) v = catLoss entCoef vfCoef A r a l v := by
  have hp : ∀ i k, Dist.softmax (fun k => l i k + c i) k = Dist.softmax (l i) k := by
    intro i k
    unfold Dist.softmax
    simp only [exp_add, ← Finset.sum_mul]
    rw [mul_div_mul_right _ _ (exp_pos _).ne']
  have h1 : ∀ i, Dist.catNeglogp (fun k => l i k + c i) (a i : ℕ) = Dist.catNeglogp (l i) (a i : ℕ) := by
    intro i
    have e1 := Dist.catNeglogp_eq (fun k => l i k + c i) (a i)
    have e2 := Dist.catNeglogp_eq (l i) (a i)
    rw [hp] at e1
    exact e1.trans e2.symm
  have h2 : ∀ i, Dist.catEntropy (fun k => l i k + c i) = Dist.catEntropy (l i) := by
    intro i
    unfold Dist.catEntropy
    refine Finset.sum_congr rfl fun k _ => ?_
    rw [Dist.p0_eq, Dist.p0_eq, hp]
    have e1 := Dist.log_softmax_shifted (fun k => l i k + c i) k
    have e2 := Dist.log_softmax_shifted (l i) k
    rw [hp] at e1
    congr 1
    linarith
  unfold catLoss
  simp only [h1, h2]

/-- **C124.** The Fisher loss of the values: at the values themselves its gradient is `2 coef g_i / n`, the draws `g` scaled, whatever the values are. -/
theorem C124_fisher (coef : ℝ) (nlp v g E : Fin n → ℝ) :
    HasDerivAt (fun t : ℝ => jointFisher coef nlp v g fun i => v i + t * E i) (∑ i, 2 * coef * g i / n * E i) 0 ∧
    (∀ t : ℝ, jointFisher coef (fun i => nlp i + t) v g v = jointFisher coef nlp v g v - if n = 0 then 0 else t) := by
  constructor
  · have h := ((hasDeriv_mean fun i => hasDeriv_sq (v i) (v i + g i) (E i)).const_mul (-coef)).const_add (pgFisher nlp)
    refine h.congr_deriv ?_
    unfold mean
    rw [mul_div_assoc', Finset.mul_sum, Finset.sum_div]
    exact Finset.sum_congr rfl fun i _ => by ring
  · intro t
    unfold jointFisher pgFisher mean
    by_cases hn : n = 0
    · subst hn; simp
    have : (n : ℝ) ≠ 0 := Nat.cast_ne_zero.2 hn
    rw [if_neg hn, Finset.sum_add_distrib]
    simp only [Finset.sum_const, Finset.card_univ, Fintype.card_fin, nsmul_eq_mul]
    field_simp
    ring

/-- **C124.** Advantages: return minus value for A2C and for ACKTR with discrete actions; with a `Box` action space ACKTR normalises them: they sum to zero, keep their order, and a batch of equal ones is
set to zero, so that nothing but the entropy is learnt from it by the policy. -/
theorem C124_advantages (hn : n ≠ 0) (r v : Fin n → ℝ) :
    a2cAdvs r v = (fun i => r i - v i) ∧ acktrAdvs false r v = (fun i => r i - v i) ∧
    ∑ i, acktrAdvs true r v i = 0 ∧ (∀ i j, acktrAdvs true r v i ≤ acktrAdvs true r v j ↔ r i - v i ≤ r j - v j) ∧
    ((∀ i j, r i - v i = r j - v j) → ∀ entCoef nlp ent, acktrPg entCoef (acktrAdvs true r v) nlp ent = -entCoef * ((∑ i, ent i) / n)) := by
  obtain ⟨h1, h2, _⟩ := C106_advantages hn r v
  refine ⟨rfl, rfl, h1, h2, fun h e nlp ent => ?_⟩
  have h0 := (C106_constant r v h).1
  have h0' : ∀ i, acktrAdvs true r v i = 0 := h0
  unfold acktrPg pg mean
  simp only [h0', zero_mul, Finset.sum_const_zero, zero_div]
  ring

/-! ### The optimiser -/

theorem globalNorm_nonneg (g : Fin p → ℝ) : 0 ≤ globalNorm g := sqrt_nonneg _

theorem globalNorm_smul (c : ℝ) (hc : 0 ≤ c) (g : Fin p → ℝ) : globalNorm (fun i => g i * c) = globalNorm g * c := by
  unfold globalNorm
  simp only [mul_pow, ← Finset.sum_mul]
  rw [sqrt_mul (Finset.sum_nonneg fun i _ => sq_nonneg _), sqrt_sq hc]

theorem globalNorm_zero {g : Fin p → ℝ} (h : globalNorm g = 0) (i : Fin p) : g i = 0 := by
  unfold globalNorm at h
  rw [sqrt_eq_zero (Finset.sum_nonneg fun i _ => sq_nonneg _), Finset.sum_eq_zero_iff_of_nonneg fun i _ => sq_nonneg _] at h
  exact pow_eq_zero_iff (two_ne_zero) |>.1 (h i (Finset.mem_univ i))

/-- **C124.** Gradient clipping: gradients within the bound are used as they are, larger ones are scaled down together, to the bound exactly; without a bound nothing is changed. -/
theorem C124_clip {c : ℝ} (hc : 0 < c) (g : Fin p → ℝ) :
    clipGrads none g = g ∧ (√(∑ i, g i ^ 2) ≤ c → clipGrads (some c) g = g) ∧
    (c ≤ √(∑ i, g i ^ 2) → √(∑ i, clipGrads (some c) g i ^ 2) = c ∧ ∃ s : ℝ, 0 < s ∧ s ≤ 1 ∧ ∀ i, clipGrads (some c) g i = s * g i) := by
  refine ⟨rfl, fun h => ?_, fun h => ?_⟩
  · funext i
    show g i * (c * min (1 / globalNorm g) (1 / c)) = g i
    rcases (globalNorm_nonneg g).eq_or_lt with h0 | h0
    · rw [globalNorm_zero h0.symm i, zero_mul]
    · rw [min_eq_right (one_div_le_one_div_of_le h0 h), mul_one_div_cancel hc.ne', mul_one]
  · have h : c ≤ globalNorm g := h
    have h0 : 0 < globalNorm g := hc.trans_le h
    have e : ∀ i, clipGrads (some c) g i = g i * (c / globalNorm g) := by
      intro i
      show g i * (c * min (1 / globalNorm g) (1 / c)) = _
      rw [min_eq_left (one_div_le_one_div_of_le hc h)]
      ring
    refine ⟨?_, c / globalNorm g, div_pos hc h0, (div_le_one h0).2 h, fun i => by rw [e, mul_comm]⟩
    have := globalNorm_smul (c / globalNorm g) (div_pos hc h0).le g
    rw [mul_div_cancel₀ _ h0.ne'] at this
    simp only [e]
    exact this

/-- **C124.** A step of the optimiser: the mean squares stay non-negative, every parameter moves against its gradient, and by no more than `lr / sqrt(1 - decay)` however large the gradient. -/
theorem C124_step {lr decay eps : ℝ} (hlr : 0 ≤ lr) (hd : 0 ≤ decay) (hd1 : decay < 1) (he : 0 < eps) (g : Fin p → ℝ) (s : Opt p) (hs : ∀ i, 0 ≤ s.ms i) (i : Fin p) :
    let s' := rmsStep lr decay eps g s
    s'.ms i = decay * s.ms i + (1 - decay) * g i ^ 2 ∧ 0 ≤ s'.ms i ∧ (s'.par i - s.par i) * g i ≤ 0 ∧ (g i = 0 → s'.par i = s.par i) ∧
    (0 < lr → g i ≠ 0 → (s'.par i - s.par i) * g i < 0) ∧ |s'.par i - s.par i| ≤ lr / √(1 - decay) := by
  intro s'
  have hms : s'.ms i = decay * s.ms i + (1 - decay) * g i ^ 2 := by show s.ms i + (g i ^ 2 - s.ms i) * (1 - decay) = _; ring
  have h1d : 0 < 1 - decay := by linarith
  have hms0 : 0 ≤ s'.ms i := by
    rw [hms]
    have := mul_nonneg hd (hs i)
    positivity
  have hq : 0 < √(s'.ms i + eps) := sqrt_pos.2 (by linarith)
  have hstep : s'.par i - s.par i = -(lr * g i / √(s'.ms i + eps)) := by show s.par i - lr * g i / √(s'.ms i + eps) - s.par i = _; ring
  refine ⟨hms, hms0, ?_, fun h => ?_, fun hl hg => ?_, ?_⟩
  · rw [hstep]
    have : 0 ≤ lr * g i ^ 2 / √(s'.ms i + eps) := by positivity
    have e : -(lr * g i / √(s'.ms i + eps)) * g i = -(lr * g i ^ 2 / √(s'.ms i + eps)) := by ring
    linarith
  · have := hstep
    rw [h] at this
    simp at this
    linarith
  · rw [hstep]
    have : 0 < lr * g i ^ 2 / √(s'.ms i + eps) := by positivity
    have e : -(lr * g i / √(s'.ms i + eps)) * g i = -(lr * g i ^ 2 / √(s'.ms i + eps)) := by ring
    linarith
  · rw [hstep, abs_neg, abs_div, abs_mul, abs_of_nonneg hlr, abs_of_pos hq, div_le_div_iff₀ hq (sqrt_pos.2 h1d), mul_assoc]
    refine mul_le_mul_of_nonneg_left ?_ hlr
    rw [← sqrt_sq_eq_abs, ← sqrt_mul (sq_nonneg _)]
    refine sqrt_le_sqrt ?_
    have := mul_nonneg hd (hs i)
    nlinarith

/-! ### The learning rate -/

theorem rate_some (curve : ℝ → ℝ) : ∀ (k : ℕ) (s : Sched ℝ) (o : Option ℝ), 0 < k →
    rate curve k s o = .ok (s.initial * curve ((s.step + (k - 1 : ℕ)) / s.n), { s with step := s.step + k })
  | 1, s, o, _ => by
    simp [rate, Sched.value]
  | k + 2, s, o, _ => by
    rw [rate, rate_some curve (k + 1) _ _ (by omega)]
    simp only [Sched.value, Except.ok.injEq, Prod.mk.injEq, Sched.mk.injEq, and_true]
    constructor
    · congr 3
      simp only [Nat.add_sub_cancel, show k + 2 - 1 = k + 1 from rfl]
      push_cast
      ring
    · push_cast
      ring

/-- **C124.** The learning rate of an update is the schedule at the last sample of its batch; an empty batch fails the assertion. -/
theorem C124_rate (curve : ℝ → ℝ) (s : Sched ℝ) (N : ℕ) :
    rate curve 0 s none = .error .assertion ∧
    (0 < N → rate curve N s none = .ok (s.initial * curve ((s.step + (N - 1 : ℕ)) / s.n), { s with step := s.step + N })) :=
  ⟨rfl, fun h => rate_some curve N s none h⟩

theorem loop_spec (curve : ℝ → ℝ) {N : ℕ} (hN : 0 < N) (maxNorm : Option ℝ) (decay eps : ℝ) (grads : ℕ → (Fin p → ℝ) → Fin p → ℝ) (lr T : ℝ) :
    ∀ (k u : ℕ) (s : Opt p), ∃ S : ℕ → Opt p, S 0 = s ∧
      (∀ v < k, S (v + 1) = rmsStep (lr * curve ((((u + v + 1) * N : ℕ) - 1) / T)) decay eps (clipGrads maxNorm (grads (u + v) (S v).par)) (S v)) ∧
      ∀ stop : ℕ → Bool, ∃ w ≤ k, (∀ v < w, stop (u + v) = false) ∧ (w < k → stop (u + w) = true) ∧
      loop curve N maxNorm decay eps grads stop k u ({ step := ((u * N : ℕ) : ℝ), initial := lr, n := T }, s) = .ok ({ step := (((u + w) * N : ℕ) : ℝ), initial := lr, n := T }, S w)
  | 0, u, s => ⟨fun _ => s, rfl, fun v hv => absurd hv (Nat.not_lt_zero v), fun stop => ⟨0, le_rfl, fun v hv => absurd hv (Nat.not_lt_zero v), fun h => absurd h (lt_irrefl 0), rfl⟩⟩
  | k + 1, u, s => by
    set lr0 := lr * curve ((((u + 0 + 1) * N : ℕ) - 1) / T) with hlr0
    set s1 := rmsStep lr0 decay eps (clipGrads maxNorm (grads u s.par)) s with hs1
    obtain ⟨S, hS0, hS, hloop⟩ := loop_spec curve hN maxNorm decay eps grads lr T k (u + 1) s1
    refine ⟨fun v => match v with | 0 => s | v + 1 => S v, rfl, fun v hv => ?_, fun stop => ?_⟩
    · cases v with
      | zero => exact hS0
      | succ v =>
        have := hS v (by omega)
        simp only [show u + 1 + v = u + (v + 1) by ring] at this
        exact this
    · by_cases hst : stop u = true
      · exact ⟨0, by omega, fun v hv => absurd hv (Nat.not_lt_zero v), fun _ => hst, by rw [loop, if_pos hst]; rfl⟩
      · obtain ⟨w, hw, h1, h2, h3⟩ := hloop stop
        refine ⟨w + 1, by omega, fun v hv => ?_, fun h => ?_, ?_⟩
        · cases v with
          | zero => simpa using hst
          | succ v =>
            have := h1 v (by omega)
            rwa [show u + 1 + v = u + (v + 1) by ring] at this
        · have := h2 (by omega)
          rwa [show u + 1 + w = u + (w + 1) by ring] at this
        · have ht : trainStep curve N maxNorm decay eps (grads u) ({ step := ((u * N : ℕ) : ℝ), initial := lr, n := T }, s) =
              .ok ({ step := (((u + 1) * N : ℕ) : ℝ), initial := lr, n := T }, s1) := by
            unfold trainStep
            rw [rate_some curve N _ none hN]
            have e1 : ((u * N : ℕ) : ℝ) + (N - 1 : ℕ) = (((u + 0 + 1) * N : ℕ) : ℝ) - 1 := by
              rw [Nat.cast_sub hN]; push_cast; ring
            have e2 : ((u * N : ℕ) : ℝ) + N = (((u + 1) * N : ℕ) : ℝ) := by push_cast; ring
            simp only [e1, e2]
            rfl
          rw [loop, if_neg hst, ht]
          simp only []
          rw [h3]
          rw [show u + 1 + w = u + (w + 1) by ring]

/-- **C124.** A whole call of `learn` with batches of `N` samples: the parameters `S 0, S 1, …` after the updates; update `u` (from 0) uses the rate of the schedule at time step `(u + 1) N - 1`, clips the
gradient at the parameters then reached and takes one optimiser step.  Training ends after `total // N` updates, or before the first one at which the callback stops it. -/
theorem C124_learn (curve : ℝ → ℝ) (lr : ℝ) {total N : ℕ} (hN : 0 < N) (maxNorm : Option ℝ) (decay eps : ℝ) (grads : ℕ → (Fin p → ℝ) → Fin p → ℝ) (s : Opt p) :
    ∃ S : ℕ → Opt p, S 0 = s ∧
      (∀ u < total / N, S (u + 1) = rmsStep (lr * curve ((((u + 1) * N : ℕ) - 1) / total)) decay eps (clipGrads maxNorm (grads u (S u).par)) (S u)) ∧
      ∀ stop : ℕ → Bool, ∃ w ≤ total / N, (∀ u < w, stop u = false) ∧ (w < total / N → stop w = true) ∧
        learn curve lr total N maxNorm decay eps grads stop s = .ok ({ step := ((w * N : ℕ) : ℝ), initial := lr, n := total }, S w) := by
  obtain ⟨S, h0, h1, h2⟩ := loop_spec curve hN maxNorm decay eps grads lr total (total / N) 0 s
  refine ⟨S, h0, fun u hu => by simpa using h1 u hu, fun stop => ?_⟩
  obtain ⟨w, hw, h3, h4, h5⟩ := h2 stop
  refine ⟨w, hw, fun u hu => by simpa using h3 u hu, fun h => by simpa using h4 h, ?_⟩
  unfold learn
  rw [if_neg (by omega)]
  simpa using h5

/-- **C124.** Under the linear schedule the rates used by `learn` fall from update to update and are all positive: `lr (total + 1 - (u + 1) N) / total`. -/
theorem C124_linear {lr : ℝ} (hlr : 0 < lr) {total N u : ℕ} (hN : 0 < N) (hu : u < total / N) :
    lr * linearC ((((u + 1) * N : ℕ) - 1) / (total : ℝ)) = lr * (total + 1 - ((u + 1) * N : ℕ)) / total ∧ 0 < lr * linearC ((((u + 1) * N : ℕ) - 1) / (total : ℝ)) ∧
    lr * linearC ((((u + 1) * N : ℕ) - 1) / (total : ℝ)) ≤ lr ∧
    lr * linearC ((((u + 1 + 1) * N : ℕ) - 1) / (total : ℝ)) < lr * linearC ((((u + 1) * N : ℕ) - 1) / (total : ℝ)) := by
  have h1 : (u + 1) * N ≤ total := (Nat.mul_le_mul_right N hu).trans (Nat.div_mul_le_self total N)
  have h2 : 1 ≤ (u + 1) * N := Nat.mul_pos (Nat.succ_pos u) hN
  have ht : (0 : ℝ) < total := by exact_mod_cast (show 0 < total by omega)
  have h1' : (((u + 1) * N : ℕ) : ℝ) ≤ total := by exact_mod_cast h1
  have h2' : (1 : ℝ) ≤ (((u + 1) * N : ℕ) : ℝ) := by exact_mod_cast h2
  have h3 : (((u + 1 + 1) * N : ℕ) : ℝ) = ((u + 1) * N : ℕ) + N := by push_cast; ring
  have hN' : (0 : ℝ) < N := Nat.cast_pos.2 hN
  rw [h3]
  set x := (((u + 1) * N : ℕ) : ℝ)
  unfold linearC
  have e : lr * (1 - (x - 1) / total) = lr * (total + 1 - x) / total := by
    field_simp
    ring
  refine ⟨e, ?_, ?_, ?_⟩
  · rw [e]
    have : 0 < total + 1 - x := by linarith
    positivity
  · have : 0 ≤ (x - 1) / total := div_nonneg (by linarith) ht.le
    nlinarith
  · refine mul_lt_mul_of_pos_left ?_ hlr
    have : (x - 1) / total < (x + N - 1) / total := div_lt_div_of_pos_right (by linarith) ht
    linarith

/-! ### Concrete cases -/

/-- Two samples of a policy with two equally likely actions, one sample with advantage 2, no bonus: the gradient of the taken action's logit is `2 * (1/2 - 1) / 2`. -/
example : (2 : ℝ) * (exp 0 / (∑ j : Fin 2, exp ((fun _ => 0 : Fin 2 → ℝ) j)) - if (0 : Fin 2) = 0 then 1 else 0) / 2 = -1 / 2 := by
  simp
  norm_num

/-- Gradients beyond the bound. -/
example : (0.5 : ℝ) ≤ √(∑ i : Fin 2, (![3, 4] : Fin 2 → ℝ) i ^ 2) := by
  rw [Fin.sum_univ_two]
  simp only [Matrix.cons_val_zero, Matrix.cons_val_one]
  rw [show (3 : ℝ) ^ 2 + 4 ^ 2 = 5 ^ 2 by norm_num, sqrt_sq (by norm_num)]
  norm_num

/-- Updates of 5 samples in 12 time steps: two of them. -/
example : 1 < 12 / 5 ∧ 0 < 5 := by decide

example : ∃ r v : Fin 2 → ℝ, (∀ i j, r i - v i = r j - v j) ∧ r 0 - v 0 ≠ 0 := ⟨fun _ => 1, fun _ => 0, by simp, by simp⟩

end Neorl.PGLoss
