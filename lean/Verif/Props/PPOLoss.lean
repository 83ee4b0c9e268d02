import Verif.PPOLoss
import Mathlib.Analysis.Calculus.Deriv.Mul
import Mathlib.Analysis.Calculus.Deriv.Add
import Mathlib.Algebra.BigOperators.Field
import Mathlib.Tactic.Linarith
import Mathlib.Tactic.FieldSimp
import Mathlib.Tactic.Positivity

/-!
# C106: the loss of PPO2
-/

set_option linter.unusedSectionVars false
set_option linter.unusedVariables false

namespace Neorl.PPOLoss

open Real

variable {n : ℕ}

theorem clipBy_low {x lo hi : ℝ} (h : lo ≤ hi) (hx : x ≤ lo) : clipBy x lo hi = lo := by
  unfold clipBy
  rw [min_eq_left (hx.trans h), max_eq_right hx]

theorem clipBy_high {x lo hi : ℝ} (h : lo ≤ hi) (hx : hi ≤ x) : clipBy x lo hi = hi := by
  unfold clipBy
  rw [min_eq_right hx, max_eq_left h]

theorem clipBy_mid {x lo hi : ℝ} (h1 : lo ≤ x) (h2 : x ≤ hi) : clipBy x lo hi = x := by
  unfold clipBy
  rw [min_eq_left h2, max_eq_left h1]

theorem ratio_pos (a b : ℝ) : 0 < ratio a b := exp_pos _

/-- **C106.** With the probabilities `p` (now) and `q` (at the time of the rollout) of the taken action the ratio is `p / q`. -/
theorem C106_ratio {p q : ℝ} (hp : 0 < p) (hq : 0 < q) : ratio (-log q) (-log p) = p / q := by
  unfold ratio
  rw [show -log q - -log p = log p - log q by ring, exp_sub, exp_log hp, exp_log hq]

/-- **C106.** The clipped surrogate by cases: a good action (`0 ≤ A`) earns no more for a ratio above `1 + ε`, a bad one no more for a ratio below `1 - ε`; everywhere else the loss
is the plain `-A * ratio`. -/
theorem C106_surrogate {eps : ℝ} (he : 0 ≤ eps) (A o l : ℝ) :
    (0 ≤ A → 1 + eps ≤ ratio o l → pgSample eps A o l = -A * (1 + eps)) ∧
    (0 ≤ A → ratio o l ≤ 1 + eps → pgSample eps A o l = -A * ratio o l) ∧
    (A ≤ 0 → ratio o l ≤ 1 - eps → pgSample eps A o l = -A * (1 - eps)) ∧
    (A ≤ 0 → 1 - eps ≤ ratio o l → pgSample eps A o l = -A * ratio o l) := by
  have hle : 1 - eps ≤ 1 + eps := by linarith
  unfold pgSample
  refine ⟨fun hA hr => ?_, fun hA hr => ?_, fun hA hr => ?_, fun hA hr => ?_⟩
  · rw [clipBy_high hle hr]
    exact max_eq_right (by nlinarith)
  · rcases le_total (1 - eps) (ratio o l) with h | h
    · rw [clipBy_mid h hr, max_self]
    · rw [clipBy_low hle h]
      exact max_eq_left (by nlinarith)
  · rw [clipBy_low hle hr]
    exact max_eq_right (by nlinarith)
  · rcases le_total (ratio o l) (1 + eps) with h | h
    · rw [clipBy_mid hr h, max_self]
    · rw [clipBy_high hle h]
      exact max_eq_left (by nlinarith)

theorem mean_le {f g : Fin n → ℝ} (h : ∀ i, f i ≤ g i) : mean f ≤ mean g := by
  unfold mean
  exact div_le_div_of_nonneg_right (Finset.sum_le_sum fun i _ => h i) (Nat.cast_nonneg _)

/-- **C106.** The surrogate is pessimistic: the loss is never below the unclipped one, and equal to it while all ratios are within the range. -/
theorem C106_pessimistic {eps : ℝ} (he : 0 ≤ eps) (A o l : Fin n → ℝ) :
    (mean fun i => -A i * ratio (o i) (l i)) ≤ pgLoss eps A o l ∧
    ((∀ i, |ratio (o i) (l i) - 1| ≤ eps) → pgLoss eps A o l = mean fun i => -A i * ratio (o i) (l i)) := by
  constructor
  · exact mean_le fun i => le_max_left _ _
  · intro h
    unfold pgLoss
    congr 1
    funext i
    obtain ⟨h1, h2⟩ := abs_le.1 (h i)
    unfold pgSample
    rw [clipBy_mid (by linarith) (by linarith), max_self]

theorem hasDeriv_ratio (o l : ℝ) : HasDerivAt (fun l => ratio o l) (-ratio o l) l := by
  unfold ratio
  have h := (((hasDerivAt_id l).const_sub o).exp)
  simpa using h

/-- **C106.** The gradient: zero where the surrogate is clipped, `A * ratio` with respect to the negative log probability elsewhere. -/
theorem C106_gradient {eps : ℝ} (he : 0 ≤ eps) (A o l : ℝ) :
    ((0 < A ∧ 1 + eps < ratio o l) ∨ (A < 0 ∧ ratio o l < 1 - eps) → HasDerivAt (fun l => pgSample eps A o l) 0 l) ∧
    ((0 < A ∧ ratio o l < 1 + eps) ∨ (A < 0 ∧ 1 - eps < ratio o l) → HasDerivAt (fun l => pgSample eps A o l) (A * ratio o l) l) := by
  have hc : Continuous fun l => ratio o l := by unfold ratio; fun_prop
  have key : ∀ s : Set ℝ, IsOpen s → ratio o l ∈ s → ∀ᶠ x in nhds l, ratio o x ∈ s := fun s hs hm => hc.continuousAt.eventually (hs.mem_nhds hm)
  have hd : HasDerivAt (fun l => -A * ratio o l) (A * ratio o l) l := by
    have := (hasDeriv_ratio o l).const_mul (-A)
    simpa using this
  constructor
  · rintro (⟨hA, hr⟩ | ⟨hA, hr⟩)
    · refine (hasDerivAt_const l (-A * (1 + eps))).congr_of_eventuallyEq ?_
      filter_upwards [key (Set.Ioi (1 + eps)) isOpen_Ioi hr] with x hx
      exact (C106_surrogate he A o x).1 hA.le (le_of_lt hx)
    · refine (hasDerivAt_const l (-A * (1 - eps))).congr_of_eventuallyEq ?_
      filter_upwards [key (Set.Iio (1 - eps)) isOpen_Iio hr] with x hx
      exact (C106_surrogate he A o x).2.2.1 hA.le (le_of_lt hx)
  · rintro (⟨hA, hr⟩ | ⟨hA, hr⟩)
    · refine hd.congr_of_eventuallyEq ?_
      filter_upwards [key (Set.Iio (1 + eps)) isOpen_Iio hr] with x hx
      exact (C106_surrogate he A o x).2.1 hA.le (le_of_lt hx)
    · refine hd.congr_of_eventuallyEq ?_
      filter_upwards [key (Set.Ioi (1 - eps)) isOpen_Ioi hr] with x hx
      exact (C106_surrogate he A o x).2.2.2 hA.le (le_of_lt hx)

/-! ### Advantages -/

theorem sum_eq_mean (hn : n ≠ 0) (f : Fin n → ℝ) : ∑ i, f i = n * mean f := by
  unfold mean
  have : (n : ℝ) ≠ 0 := Nat.cast_ne_zero.2 hn
  field_simp

theorem std_nonneg (f : Fin n → ℝ) : 0 ≤ std f := sqrt_nonneg _

/-- **C106.** The normalised advantages sum to zero, keep the order of the raw ones, and their standard deviation is `s / (s + 1e-8)`, so below one. -/
theorem C106_advantages (hn : n ≠ 0) (ret val : Fin n → ℝ) :
    ∑ i, advs ret val i = 0 ∧ (∀ i j, advs ret val i ≤ advs ret val j ↔ ret i - val i ≤ ret j - val j) ∧
    std (advs ret val) = std (fun i => ret i - val i) / (std (fun i => ret i - val i) + 1e-8) ∧ std (advs ret val) < 1 := by
  set d : Fin n → ℝ := fun i => ret i - val i with hd
  have hs := std_nonneg d
  have hpos : 0 < std d + 1e-8 := by norm_num; linarith
  have hadv : ∀ i, advs ret val i = (d i - mean d) / (std d + 1e-8) := fun i => rfl
  have hsum : ∑ i, (d i - mean d) = 0 := by
    rw [Finset.sum_sub_distrib, sum_eq_mean hn d]
    simp
  have hsum0 : ∑ i, advs ret val i = 0 := by
    simp only [hadv]
    rw [← Finset.sum_div, hsum, zero_div]
  have hstd : std (advs ret val) = std d / (std d + 1e-8) := by
    have hm : mean (advs ret val) = 0 := by unfold mean; rw [hsum0, zero_div]
    show √(mean fun i => (advs ret val i - mean (advs ret val)) ^ 2) = _
    rw [hm]
    have : (mean fun i => (advs ret val i - 0) ^ 2) = (mean fun i => (d i - mean d) ^ 2) / (std d + 1e-8) ^ 2 := by
      unfold mean
      simp only [sub_zero, hadv, div_pow]
      rw [← Finset.sum_div]
      unfold mean
      ring
    rw [this, sqrt_div (by unfold mean; positivity), sqrt_sq hpos.le]
    rfl
  refine ⟨hsum0, fun i j => ?_, hstd, ?_⟩
  · rw [hadv, hadv, div_le_div_iff_of_pos_right hpos]
    exact sub_le_sub_iff_right _
  · rw [hstd, div_lt_one hpos]
    norm_num

/-- **C106.** Equal raw advantages, in particular a minibatch of one sample, are normalised to zero: the policy loss is zero whatever the policy does. -/
theorem C106_constant (ret val : Fin n → ℝ) (h : ∀ i j, ret i - val i = ret j - val j) : (∀ i, advs ret val i = 0) ∧ ∀ eps o l, pgLoss eps (advs ret val) o l = 0 := by
  have h0 : ∀ i, advs ret val i = 0 := by
    intro i
    have hm : (mean fun j => ret j - val j) = ret i - val i := by
      unfold mean
      rw [Finset.sum_congr rfl fun j _ => h j i]
      have hn : n ≠ 0 := fun h0 => by subst h0; exact i.elim0
      have : (n : ℝ) ≠ 0 := Nat.cast_ne_zero.2 hn
      simp only [Finset.sum_const, Finset.card_univ, Fintype.card_fin, nsmul_eq_mul]
      field_simp
    unfold advs
    rw [hm, sub_self, zero_div]
  refine ⟨h0, fun eps o l => ?_⟩
  unfold pgLoss mean pgSample
  simp [h0]

/-- **C106.** At the first gradient step of a rollout, when the policy is still the one of the rollout: every ratio is 1, the policy loss, `approxkl` and `clipfrac` are zero (the gradient is not: C106_gradient). -/
theorem C106_first (hn : n ≠ 0) {eps : ℝ} (he : 0 ≤ eps) (ret val l : Fin n → ℝ) : pgLoss eps (advs ret val) l l = 0 ∧ approxkl l l = 0 ∧ clipfrac eps l l = 0 := by
  have hr : ∀ x, ratio x x = 1 := fun x => by simp [ratio]
  refine ⟨?_, ?_, ?_⟩
  · rw [(C106_pessimistic he (advs ret val) l l).2 (fun i => by rw [hr]; simpa using he)]
    unfold mean
    simp only [hr, mul_one, Finset.sum_neg_distrib, (C106_advantages hn ret val).1, neg_zero, zero_div]
  · simp [approxkl, mean]
  · unfold clipfrac mean
    simp [hr, not_lt.2 he]

/-- **C106.** `clipfrac` is the share of the samples whose ratio is outside the range. -/
theorem C106_clipfrac (eps : ℝ) (o l : Fin n → ℝ) :
    clipfrac eps o l * n = ((Finset.univ.filter fun i => ratio (o i) (l i) < 1 - eps ∨ 1 + eps < ratio (o i) (l i)).card : ℝ) := by
  unfold clipfrac mean
  by_cases hn : n = 0
  · subst hn; simp
  have : (n : ℝ) ≠ 0 := Nat.cast_ne_zero.2 hn
  rw [div_mul_cancel₀ _ this, Finset.sum_ite]
  simp only [Finset.sum_const, nsmul_eq_mul, mul_one, mul_zero, add_zero]
  congr 2
  ext i
  simp only [Finset.mem_filter, Finset.mem_univ, true_and, lt_abs]
  constructor
  · rintro (h | h)
    · right; linarith
    · left; linarith
  · rintro (h | h)
    · right; linarith
    · left; linarith

/-! ### Value function -/

/-- **C106.** The constructor leaves `cliprange_vf = None`, so the range of the policy is used for the values; only a negative range (which cannot be set there) turns the clipping off. -/
theorem C106_range (cliprange c : ℝ) : vfRange none cliprange = some cliprange ∧ (c < 0 → vfRange (some c) cliprange = none) ∧ (0 ≤ c → vfRange (some c) cliprange = some c) := by
  refine ⟨rfl, fun h => ?_, fun h => ?_⟩
  · simp [vfRange, h]
  · simp [vfRange, not_lt.2 h]

/-- **C106.** The value loss is never below the squared error, and equal to half its mean as long as the values stay within the range around the old ones (or without clipping). -/
theorem C106_value {c : ℝ} (hc : 0 ≤ c) (ret old v : Fin n → ℝ) :
    (0.5 * mean fun i => (v i - ret i) ^ 2) ≤ vfLoss (some c) ret old v ∧
    ((∀ i, |v i - old i| ≤ c) → vfLoss (some c) ret old v = 0.5 * mean fun i => (v i - ret i) ^ 2) ∧
    vfLoss none ret old v = 0.5 * mean fun i => (v i - ret i) ^ 2 := by
  refine ⟨?_, fun h => ?_, ?_⟩
  · unfold vfLoss
    exact mul_le_mul_of_nonneg_left (mean_le fun i => le_max_left _ _) (by norm_num)
  · unfold vfLoss
    congr 2
    funext i
    obtain ⟨h1, h2⟩ := abs_le.1 (h i)
    unfold vfSample vpredClipped
    simp only
    rw [clipBy_mid h1 h2, add_sub_cancel, max_self]
  · unfold vfLoss
    congr 2
    funext i
    exact max_self _

/-- **C106.** The best any prediction can do: the loss of a sample is at least the squared distance of the return to the range around the old value, and the return itself attains it.  So a
perfect prediction is still charged when the return is further than the range from the old prediction. -/
theorem C106_value_floor {c : ℝ} (hc : 0 ≤ c) (ret old v : ℝ) :
    max (|ret - old| - c) 0 ^ 2 ≤ vfSample (some c) ret old v ∧ vfSample (some c) ret old ret = max (|ret - old| - c) 0 ^ 2 := by
  have hcc : -c ≤ c := by linarith
  have hsq : ∀ x y : ℝ, 0 ≤ x → x ≤ |y| → x ^ 2 ≤ y ^ 2 := fun x y hx h => by rw [← sq_abs y]; exact pow_le_pow_left₀ hx h 2
  constructor
  · refine le_trans ?_ (le_max_right _ _)
    refine hsq _ _ (le_max_right _ _) (max_le ?_ (abs_nonneg _))
    show |ret - old| - c ≤ |old + clipBy (v - old) (-c) c - ret|
    have hb : |clipBy (v - old) (-c) c| ≤ c := by
      unfold clipBy
      rw [abs_le]
      exact ⟨le_max_right _ _, max_le (min_le_right _ _) hcc⟩
    have := abs_sub_abs_le_abs_sub (ret - old) (clipBy (v - old) (-c) c)
    rw [abs_sub_comm (ret - old)] at this
    have e : clipBy (v - old) (-c) c - (ret - old) = old + clipBy (v - old) (-c) c - ret := by ring
    rw [e] at this
    linarith
  · unfold vfSample vpredClipped
    simp only [sub_self]
    rw [zero_pow (by norm_num), max_eq_right (sq_nonneg _)]
    rcases le_total (|ret - old|) c with h | h
    · rw [max_eq_right (by linarith), clipBy_mid (abs_le.1 h).1 (abs_le.1 h).2]
      ring
    · rw [max_eq_left (by linarith)]
      rcases le_total 0 (ret - old) with h0 | h0
      · rw [abs_of_nonneg h0] at h ⊢
        rw [clipBy_high hcc h]
        ring
      · rw [abs_of_nonpos h0] at h ⊢
        rw [clipBy_low hcc (by linarith)]
        ring

/-- **C106.** A value moved beyond the range towards the return (from the old value) is charged as if it stood at the border of the range: no gradient pulls it further. -/
theorem C106_value_flat {c : ℝ} (hc : 0 ≤ c) {ret old v : ℝ} (h : (old + c ≤ v ∧ v ≤ ret) ∨ (v ≤ old - c ∧ ret ≤ v)) :
    vfSample (some c) ret old v = max (|ret - old| - c) 0 ^ 2 := by
  have hcc : -c ≤ c := by linarith
  unfold vfSample vpredClipped
  simp only
  rcases h with ⟨h1, h2⟩ | ⟨h1, h2⟩
  · have e1 : max (ret - old - c) 0 = ret - old - c := max_eq_left (by linarith)
    have e2 : max ((v - ret) ^ 2) ((old + c - ret) ^ 2) = (old + c - ret) ^ 2 := max_eq_right (by nlinarith)
    rw [clipBy_high hcc (by linarith), abs_of_nonneg (by linarith), e1, e2]
    ring
  · have e1 : max (-(ret - old) - c) 0 = -(ret - old) - c := max_eq_left (by linarith)
    have e2 : max ((v - ret) ^ 2) ((old + -c - ret) ^ 2) = (old + -c - ret) ^ 2 := max_eq_right (by nlinarith)
    rw [clipBy_low hcc (by linarith), abs_of_nonpos (by linarith), e1, e2]
    ring

/-- **C106.** The total loss falls with the entropy at rate `ent_coef`, grows with the value loss at rate `vf_coef` and with the policy loss at rate one. -/
theorem C106_total (pg ent vf a b t : ℝ) : loss pg (ent + t) vf a b = loss pg ent vf a b - a * t ∧ loss pg ent (vf + t) a b = loss pg ent vf a b + b * t ∧
    loss (pg + t) ent vf a b = loss pg ent vf a b + t ∧ loss 0 0 0 a b = 0 := by
  unfold loss
  refine ⟨by ring, by ring, by ring, by ring⟩

/-! ### Concrete cases -/

/-- A good action whose probability rose from 1/2 to 1: the ratio is 2, beyond 1.2. -/
example : (0 : ℝ) < 3 ∧ 1 + 0.2 < ratio (-log (1 / 2)) (-log 1) := by
  rw [C106_ratio one_pos (by norm_num)]
  norm_num

/-- Old value 0, return 3, range 1: predicting 3 costs 4. -/
example : vfSample (some 1) 3 0 3 = 4 := by
  rw [(C106_value_floor one_pos.le 3 0 3).2]
  norm_num

example : ∃ ret val : Fin 2 → ℝ, ret 0 - val 0 ≠ ret 1 - val 1 := ⟨fun i => i, 0, by simp⟩

end Neorl.PPOLoss
