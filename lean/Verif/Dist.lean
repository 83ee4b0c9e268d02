import Mathlib.Probability.Distributions.Gaussian.Real
import Mathlib.Algebra.BigOperators.Fin
import Mathlib.Data.List.MinMax
import Mathlib.Analysis.SpecialFunctions.Integrals.Basic
import Mathlib.MeasureTheory.Integral.Pi

/-!
# Action distributions

Model of `neorl/rl/baselines/shared/distributions.py`: categorical, multi-categorical, diagonal Gaussian and Bernoulli distributions, one row of the batch,
over the real numbers.  `tf.nn.softmax_cross_entropy_with_logits_v2` and `tf.nn.sigmoid_cross_entropy_with_logits` are the formulas of their documentation.
`proba_distribution_from_latent` (a network) is not modelled.
-/

set_option linter.unusedSectionVars false
set_option linter.unusedVariables false

namespace Neorl.Dist

open Real

/-! ### Categorical, lines 276-325 -/

section Categorical
variable {n : ℕ}

/-- `tf.argmax`: the first index of the greatest entry. -/
noncomputable def argmax (a : Fin n → ℝ) : Option (Fin n) := (List.finRange n).argmax a

/-- `a_0 = self.logits - tf.reduce_max(self.logits)`, line 299. -/
noncomputable def shifted (l : Fin n → ℝ) (i : Fin n) : ℝ := l i - ⨆ j, l j

/-- `z_0 = tf.reduce_sum(exp_a_0)`, line 303. -/
noncomputable def partition (l : Fin n → ℝ) : ℝ := ∑ i, exp (shifted l i)

/-- `p_0 = exp_a_0 / z_0`, line 305. -/
noncomputable def p0 (l : Fin n → ℝ) (i : Fin n) : ℝ := exp (shifted l i) / partition l

/-- `mode`, line 287. -/
noncomputable def catMode (l : Fin n → ℝ) : Option (Fin n) := argmax l

/-- `neglogp`, lines 290-296: cross entropy with the one-hot vector of `x`, which is the zero vector if `x` is not a category. -/
noncomputable def catNeglogp (l : Fin n → ℝ) (x : ℤ) : ℝ := ∑ i : Fin n, (if (i : ℤ) = x then 1 else 0) * (log (∑ j, exp (l j)) - l i)

/-- `kl`, lines 298-306. -/
noncomputable def catKl (l l' : Fin n → ℝ) : ℝ := ∑ i, p0 l i * (shifted l i - log (partition l) - shifted l' i + log (partition l'))

/-- `entropy`, lines 308-313. -/
noncomputable def catEntropy (l : Fin n → ℝ) : ℝ := ∑ i, p0 l i * (log (partition l) - shifted l i)

/-- `sample`, lines 315-319, with the uniform draws `u`. -/
noncomputable def catSample (l u : Fin n → ℝ) : Option (Fin n) := argmax fun i => l i - log (-log (u i))

end Categorical

/-! ### Multi-categorical, lines 332-371 -/

section Multi
variable {m : ℕ} {n : Fin m → ℕ}

/-- `tf.split(flat, nvec)`, line 341: block `k` of the flat vector. -/
def block (flat : Fin (∑ k, n k) → ℝ) (k : Fin m) (i : Fin (n k)) : ℝ := flat (finSigmaFinEquiv ⟨k, i⟩)

/-- `neglogp`, line 351. -/
noncomputable def multiNeglogp (flat : Fin (∑ k, n k) → ℝ) (x : Fin m → ℤ) : ℝ := ∑ k, catNeglogp (block flat k) (x k)

/-- `kl`, line 354. -/
noncomputable def multiKl (flat flat' : Fin (∑ k, n k) → ℝ) : ℝ := ∑ k, catKl (block flat k) (block flat' k)

/-- `entropy`, line 357. -/
noncomputable def multiEntropy (flat : Fin (∑ k, n k) → ℝ) : ℝ := ∑ k, catEntropy (block flat k)

/-- `mode`, line 348. -/
noncomputable def multiMode (flat : Fin (∑ k, n k) → ℝ) (k : Fin m) : Option (Fin (n k)) := catMode (block flat k)

end Multi

/-! ### Diagonal Gaussian, lines 374-428 -/

section Gauss
variable {n : ℕ}

/-- First half of the flat vector, line 382. -/
def mean (flat : Fin (n + n) → ℝ) (i : Fin n) : ℝ := flat (Fin.castAdd n i)

/-- Second half of the flat vector, line 382. -/
def logstd (flat : Fin (n + n) → ℝ) (i : Fin n) : ℝ := flat (Fin.natAdd n i)

/-- `self.std`, line 385. -/
noncomputable def std (flat : Fin (n + n) → ℝ) (i : Fin n) : ℝ := exp (logstd flat i)

/-- `neglogp`, lines 395-398. -/
noncomputable def gaussNeglogp (flat : Fin (n + n) → ℝ) (x : Fin n → ℝ) : ℝ :=
  0.5 * ∑ i, ((x i - mean flat i) / std flat i) ^ 2 + 0.5 * log (2 * π) * n + ∑ i, logstd flat i

/-- `kl`, lines 400-403. -/
noncomputable def gaussKl (flat flat' : Fin (n + n) → ℝ) : ℝ :=
  ∑ i, (logstd flat' i - logstd flat i + (std flat i ^ 2 + (mean flat i - mean flat' i) ^ 2) / (2 * std flat' i ^ 2) - 0.5)

/-- `entropy`, line 406. -/
noncomputable def gaussEntropy (flat : Fin (n + n) → ℝ) : ℝ := ∑ i, (logstd flat i + 0.5 * log (2 * π * exp 1))

/-- `sample`, lines 408-412, with the standard normal draws `g`. -/
noncomputable def gaussSample (flat : Fin (n + n) → ℝ) (g : Fin n → ℝ) (i : Fin n) : ℝ := mean flat i + std flat i * g i

end Gauss

/-! ### Bernoulli, lines 431-478 -/

section Bernoulli
variable {n : ℕ}

/-- `tf.sigmoid`, line 439. -/
noncomputable def sigmoid (l : ℝ) : ℝ := 1 / (1 + exp (-l))

/-- `tf.nn.sigmoid_cross_entropy_with_logits`: `max(x, 0) - x * z + log(1 + exp(-abs(x)))`. -/
noncomputable def sigmoidXent (l z : ℝ) : ℝ := max l 0 - l * z + log (1 + exp (-|l|))

/-- `neglogp`, lines 448-451. -/
noncomputable def berNeglogp (l x : Fin n → ℝ) : ℝ := ∑ i, sigmoidXent (l i) (x i)

/-- `kl`, lines 453-457. -/
noncomputable def berKl (l l' : Fin n → ℝ) : ℝ := (∑ i, sigmoidXent (l' i) (sigmoid (l i))) - ∑ i, sigmoidXent (l i) (sigmoid (l i))

/-- `entropy`, lines 459-461. -/
noncomputable def berEntropy (l : Fin n → ℝ) : ℝ := ∑ i, sigmoidXent (l i) (sigmoid (l i))

/-- `sample`, lines 463-465, with the uniform draws `u`. -/
noncomputable def berSample (l u : Fin n → ℝ) (i : Fin n) : ℝ := if u i < sigmoid (l i) then 1 else 0

/-- `tf.round` on `[0, 1]`: halves go to the even number 0. -/
noncomputable def berMode (l : Fin n → ℝ) (i : Fin n) : ℝ := if sigmoid (l i) ≤ 1 / 2 then 0 else 1

end Bernoulli

/-! ### Lemmas -/

section
variable {n : ℕ}

theorem sumExp_pos (l : Fin n → ℝ) (hn : 0 < n) : 0 < ∑ i, exp (l i) := by
  have : Nonempty (Fin n) := ⟨⟨0, hn⟩⟩
  exact Finset.sum_pos (fun i _ => exp_pos _) Finset.univ_nonempty

/-- The softmax probabilities, without any shift. -/
noncomputable def softmax (l : Fin n → ℝ) (i : Fin n) : ℝ := exp (l i) / ∑ j, exp (l j)

theorem partition_eq (l : Fin n → ℝ) : partition l = (∑ j, exp (l j)) * exp (-⨆ j, l j) := by
  unfold partition shifted
  rw [Finset.sum_mul]
  exact Finset.sum_congr rfl fun i _ => by rw [← exp_add, sub_eq_add_neg]

theorem p0_eq (l : Fin n → ℝ) (i : Fin n) : p0 l i = softmax l i := by
  unfold p0 softmax
  rw [partition_eq]
  unfold shifted
  rw [sub_eq_add_neg, exp_add, mul_div_mul_right _ _ (exp_pos _).ne']

theorem softmax_pos (l : Fin n → ℝ) (i : Fin n) : 0 < softmax l i :=
  div_pos (exp_pos _) (sumExp_pos l (Nat.pos_of_ne_zero (by rintro rfl; exact i.elim0)))

theorem softmax_sum (l : Fin n → ℝ) (hn : 0 < n) : ∑ i, softmax l i = 1 := by
  unfold softmax
  rw [← Finset.sum_div, div_self (sumExp_pos l hn).ne']

theorem log_softmax (l : Fin n → ℝ) (i : Fin n) : log (softmax l i) = l i - log (∑ j, exp (l j)) := by
  unfold softmax
  rw [log_div (exp_pos _).ne' (sumExp_pos l (Nat.pos_of_ne_zero (by rintro rfl; exact i.elim0))).ne', log_exp]

theorem log_softmax_shifted (l : Fin n → ℝ) (i : Fin n) : log (softmax l i) = shifted l i - log (partition l) := by
  rw [← p0_eq]
  unfold p0
  have : 0 < partition l := by
    rw [partition_eq]
    exact mul_pos (sumExp_pos l (Nat.pos_of_ne_zero (by rintro rfl; exact i.elim0))) (exp_pos _)
  rw [log_div (exp_pos _).ne' this.ne', log_exp]

theorem catNeglogp_eq (l : Fin n → ℝ) (i : Fin n) : catNeglogp l i = -log (softmax l i) := by
  unfold catNeglogp
  rw [log_softmax, Finset.sum_eq_single i]
  · simp
  · intro j _ hj
    rw [if_neg (by intro h; exact hj (Fin.ext (by exact_mod_cast h))), zero_mul]
  · intro h; exact absurd (Finset.mem_univ i) h

theorem catNeglogp_out (l : Fin n → ℝ) {x : ℤ} (h : ∀ i : Fin n, (i : ℤ) ≠ x) : catNeglogp l x = 0 := by
  unfold catNeglogp
  exact Finset.sum_eq_zero fun i _ => by rw [if_neg (h i), zero_mul]

/-- Gibbs' inequality with its equality case. -/
theorem gibbs {ι : Type} [Fintype ι] {p q : ι → ℝ} (hp : ∀ i, 0 < p i) (hq : ∀ i, 0 < q i) (hp1 : ∑ i, p i = 1) (hq1 : ∑ i, q i = 1) :
    0 ≤ ∑ i, p i * (log (p i) - log (q i)) ∧ (∑ i, p i * (log (p i) - log (q i)) = 0 ↔ p = q) := by
  have key : ∀ i, p i - q i ≤ p i * (log (p i) - log (q i)) := by
    intro i
    have h1 := log_le_sub_one_of_pos (div_pos (hq i) (hp i))
    rw [log_div (hq i).ne' (hp i).ne'] at h1
    have h2 := mul_le_mul_of_nonneg_left h1 (hp i).le
    have h3 : p i * (q i / p i - 1) = q i - p i := by
      have := (hp i).ne'
      field_simp
    linarith
  have hs : ∑ i, (p i - q i) = 0 := by rw [Finset.sum_sub_distrib, hp1, hq1, sub_self]
  refine ⟨by rw [← hs]; exact Finset.sum_le_sum fun i _ => key i, fun h0 => ?_, fun h => by subst h; simp⟩
  rw [← hs, eq_comm] at h0
  have h4 := (Finset.sum_eq_sum_iff_of_le fun i _ => key i).1 h0
  funext i
  by_contra hne
  have hlt : log (q i / p i) < q i / p i - 1 := log_lt_sub_one_of_pos (div_pos (hq i) (hp i)) (by
    intro h; rw [div_eq_one_iff_eq (hp i).ne'] at h; exact hne h.symm)
  rw [log_div (hq i).ne' (hp i).ne'] at hlt
  have h2 := mul_lt_mul_of_pos_left hlt (hp i)
  have h3 : p i * (q i / p i - 1) = q i - p i := by
    have := (hp i).ne'
    field_simp
  have := h4 i (Finset.mem_univ i)
  linarith

/-- Expectation of a sum of functions of single coordinates under a product distribution. -/
theorem product_expect {ι : Type} [Fintype ι] [DecidableEq ι] {κ : ι → Type} [∀ k, Fintype (κ k)] (P : ∀ k, κ k → ℝ) (hP : ∀ k, ∑ i, P k i = 1) (f : ∀ k, κ k → ℝ) :
    ∑ x : ∀ k, κ k, (∏ k, P k (x k)) * ∑ k, f k (x k) = ∑ k, ∑ i, P k i * f k i := by
  have h1 : ∀ j, ∑ x : ∀ k, κ k, (∏ k, P k (x k)) * f j (x j) = ∑ i, P j i * f j i := by
    intro j
    have h2 : ∀ x : ∀ k, κ k, (∏ k, P k (x k)) * f j (x j) = ∏ k, (P k (x k) * if k = j then f k (x k) else 1) := by
      intro x
      rw [Finset.prod_mul_distrib]
      congr 1
      rw [Finset.prod_ite_eq' Finset.univ j (fun k => f k (x k)), if_pos (Finset.mem_univ j)]
    rw [Finset.sum_congr rfl fun x _ => h2 x]
    have h3 := Finset.prod_univ_sum (fun k : ι => (Finset.univ : Finset (κ k))) (fun k i => P k i * if k = j then f k i else 1)
    rw [Fintype.piFinset_univ] at h3
    rw [← h3, Finset.prod_eq_single j]
    · simp
    · intro k _ hk
      simp [hk, hP k]
    · intro h; exact absurd (Finset.mem_univ j) h
  calc ∑ x : ∀ k, κ k, (∏ k, P k (x k)) * ∑ k, f k (x k) = ∑ x : ∀ k, κ k, ∑ k, (∏ k, P k (x k)) * f k (x k) :=
        Finset.sum_congr rfl fun x _ => Finset.mul_sum _ _ _
    _ = ∑ k, ∑ x : ∀ k, κ k, (∏ k, P k (x k)) * f k (x k) := Finset.sum_comm
    _ = _ := Finset.sum_congr rfl fun k _ => h1 k

theorem product_sum {ι : Type} [Fintype ι] [DecidableEq ι] {κ : ι → Type} [∀ k, Fintype (κ k)] (P : ∀ k, κ k → ℝ) (hP : ∀ k, ∑ i, P k i = 1) :
    ∑ x : ∀ k, κ k, ∏ k, P k (x k) = 1 := by
  have h3 := Finset.prod_univ_sum (fun k : ι => (Finset.univ : Finset (κ k))) P
  rw [Fintype.piFinset_univ] at h3
  rw [← h3]
  exact Finset.prod_eq_one fun k _ => hP k

theorem argmax_spec {a : Fin n → ℝ} {x : Fin n} : argmax a = some x ↔ (∀ i, a i ≤ a x) ∧ ∀ i, a i = a x → x ≤ i := by
  have hidx : ∀ i : Fin n, (List.finRange n).idxOf i = i := fun i => by simp
  unfold argmax
  rw [← Option.mem_def, List.mem_argmax_iff]
  simp only [List.mem_finRange, true_and, true_implies, hidx]
  refine and_congr_right fun h1 => ⟨fun h2 i hi => h2 i hi.ge, fun h2 i hi => h2 i (le_antisymm (h1 i) hi)⟩

theorem argmax_isSome (a : Fin n → ℝ) (hn : 0 < n) : ∃ x, argmax a = some x := by
  cases e : argmax a with
  | some x => exact ⟨x, rfl⟩
  | none =>
    unfold argmax at e
    rw [List.argmax_eq_none, List.finRange_eq_nil_iff] at e
    omega

end

end Neorl.Dist
