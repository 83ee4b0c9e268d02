import Verif.Dist
import Mathlib.Tactic.Linarith
import Mathlib.Tactic.Positivity
import Mathlib.Data.Fin.VecNotation

/-!
# C102: the action distributions are what they say
-/

set_option linter.unusedSectionVars false
set_option linter.unusedVariables false

namespace Neorl.Dist

open Real MeasureTheory ProbabilityTheory

/-! ### Categorical -/

section Categorical
variable {n : ℕ}

/-- **C102.** `neglogp` is the negative logarithm of the softmax probability; these are positive and sum to 1. -/
theorem C102_cat_prob (l : Fin n → ℝ) (i : Fin n) :
    exp (-catNeglogp l i) = exp (l i) / ∑ j, exp (l j) ∧ 0 ≤ catNeglogp l i ∧ ∑ j : Fin n, exp (-catNeglogp l j) = 1 := by
  have h : ∀ j : Fin n, exp (-catNeglogp l j) = softmax l j := fun j => by rw [catNeglogp_eq, neg_neg, exp_log (softmax_pos l j)]
  have hn : 0 < n := Nat.pos_of_ne_zero (by rintro rfl; exact i.elim0)
  have hle : softmax l i ≤ 1 := by
    rw [← softmax_sum l hn]
    exact Finset.single_le_sum (fun j _ => (softmax_pos l j).le) (Finset.mem_univ i)
  refine ⟨h i, ?_, by rw [Finset.sum_congr rfl fun j _ => h j, softmax_sum l hn]⟩
  have := log_nonpos (softmax_pos l i).le hle
  rw [catNeglogp_eq]
  linarith

/-- **C102 (defect).** An action that is no category has negative log probability 0, i.e. probability 1. -/
theorem C102_cat_invalid (l : Fin n → ℝ) {x : ℤ} (h : x < 0 ∨ n ≤ x) : exp (-catNeglogp l x) = 1 := by
  rw [catNeglogp_out l (fun i => by have := i.2; omega), neg_zero, exp_zero]

/-- **C102.** `entropy` is the expected negative log probability, lies between 0 and `log n`, and is `log n` only for equal logits. -/
theorem C102_cat_entropy (l : Fin n → ℝ) (hn : 0 < n) :
    catEntropy l = ∑ i : Fin n, exp (l i) / (∑ j, exp (l j)) * catNeglogp l i ∧ 0 ≤ catEntropy l ∧ catEntropy l ≤ log n ∧ (catEntropy l = log n ↔ ∀ i j, l i = l j) := by
  have e : catEntropy l = ∑ i : Fin n, softmax l i * catNeglogp l i := by
    unfold catEntropy
    refine Finset.sum_congr rfl fun i _ => ?_
    rw [p0_eq, catNeglogp_eq, log_softmax_shifted]
    ring
  have hn' : (0 : ℝ) < n := by exact_mod_cast hn
  have hg := gibbs (p := softmax l) (q := fun _ => 1 / (n : ℝ)) (softmax_pos l) (fun _ => by positivity) (softmax_sum l hn) (by simp [hn'.ne'])
  have e2 : ∑ i, softmax l i * (log (softmax l i) - log (1 / (n : ℝ))) = log n - catEntropy l := by
    rw [e]
    simp only [catNeglogp_eq, mul_sub, Finset.sum_sub_distrib, ← Finset.sum_mul, softmax_sum l hn, one_div, log_inv, mul_neg, Finset.sum_neg_distrib]
    ring
  rw [e2] at hg
  refine ⟨e, ?_, by linarith [hg.1], ?_⟩
  · rw [e]
    refine Finset.sum_nonneg fun i _ => mul_nonneg (softmax_pos l i).le ?_
    rw [catNeglogp_eq]
    have hle : softmax l i ≤ 1 := by
      rw [← softmax_sum l hn]
      exact Finset.single_le_sum (fun j _ => (softmax_pos l j).le) (Finset.mem_univ i)
    linarith [log_nonpos (softmax_pos l i).le hle]
  · rw [← sub_eq_zero, ← neg_eq_zero, neg_sub, hg.2]
    have hS := sumExp_pos l hn
    constructor
    · intro h i j
      have h1 : softmax l i = softmax l j := by rw [h]
      unfold softmax at h1
      rw [div_left_inj' hS.ne'] at h1
      exact exp_injective h1
    · intro h
      funext i
      unfold softmax
      rw [Finset.sum_congr rfl fun j _ => by rw [h j i]]
      simp only [Finset.sum_const, Finset.card_univ, Fintype.card_fin, nsmul_eq_mul]
      have := (exp_pos (l i)).ne'
      field_simp

/-- **C102.** `kl` is the Kullback-Leibler divergence of the two softmax distributions: never negative, and 0 exactly if the logits differ by a constant. -/
theorem C102_cat_kl (l l' : Fin n → ℝ) (hn : 0 < n) :
    catKl l l' = ∑ i : Fin n, exp (l i) / (∑ j, exp (l j)) * log ((exp (l i) / ∑ j, exp (l j)) / (exp (l' i) / ∑ j, exp (l' j))) ∧
    0 ≤ catKl l l' ∧ (catKl l l' = 0 ↔ ∃ c, ∀ i, l' i = l i + c) := by
  have e : catKl l l' = ∑ i : Fin n, softmax l i * (log (softmax l i) - log (softmax l' i)) := by
    unfold catKl
    refine Finset.sum_congr rfl fun i _ => ?_
    rw [p0_eq, log_softmax_shifted, log_softmax_shifted]
    ring
  have hg := gibbs (softmax_pos l) (softmax_pos l') (softmax_sum l hn) (softmax_sum l' hn)
  refine ⟨?_, by rw [e]; exact hg.1, ?_⟩
  · rw [e]
    refine Finset.sum_congr rfl fun i _ => ?_
    rw [← log_div (softmax_pos l i).ne' (softmax_pos l' i).ne']
    rfl
  · rw [e, hg.2]
    constructor
    · intro h
      refine ⟨log (∑ j, exp (l' j)) - log (∑ j, exp (l j)), fun i => ?_⟩
      have h1 : log (softmax l i) = log (softmax l' i) := by rw [h]
      rw [log_softmax, log_softmax] at h1
      linarith
    · rintro ⟨c, hc⟩
      funext i
      unfold softmax
      have h2 : ∑ j, exp (l' j) = (∑ j, exp (l j)) * exp c := by
        rw [Finset.sum_mul]
        exact Finset.sum_congr rfl fun j _ => by rw [hc j, exp_add]
      rw [h2, hc i, exp_add, mul_div_mul_right _ _ (exp_pos c).ne']

/-- **C102.** `mode` is the first of the most probable categories. -/
theorem C102_cat_mode (l : Fin n → ℝ) (hn : 0 < n) : ∃ x, catMode l = some x ∧ (∀ i : Fin n, catNeglogp l x ≤ catNeglogp l i) ∧ ∀ i : Fin n, i < x → catNeglogp l x < catNeglogp l i := by
  obtain ⟨x, hx⟩ := argmax_isSome l hn
  obtain ⟨h1, h2⟩ := argmax_spec.1 hx
  refine ⟨x, hx, fun i => ?_, fun i hi => ?_⟩
  · rw [catNeglogp_eq, catNeglogp_eq, log_softmax, log_softmax]
    linarith [h1 i]
  · rw [catNeglogp_eq, catNeglogp_eq, log_softmax, log_softmax]
    have : l i < l x := lt_of_le_of_ne (h1 i) fun e => absurd (h2 i e) (not_le.2 hi)
    linarith

/-- The draws for which category `x` wins strictly. -/
def wins (l : Fin n → ℝ) (x : Fin n) : Set (Fin n → ℝ) := {u | (∀ i, u i ∈ Set.Ioo (0 : ℝ) 1) ∧ ∀ i, i ≠ x → l i - log (-log (u i)) < l x - log (-log (u x))}

theorem gumbel_iff {a b u t : ℝ} (hu : u ∈ Set.Ioo (0 : ℝ) 1) (ht : t ∈ Set.Ioo (0 : ℝ) 1) :
    a - log (-log u) < b - log (-log t) ↔ u < t ^ exp (a - b) := by
  have hu' : 0 < -log u := by linarith [log_neg hu.1 hu.2]
  have ht' : 0 < -log t := by linarith [log_neg ht.1 ht.2]
  have h1 : a - log (-log u) < b - log (-log t) ↔ (a - b) + log (-log t) < log (-log u) := by constructor <;> intro h <;> linarith
  rw [h1]
  have h2 : (a - b) + log (-log t) = log (exp (a - b) * -log t) := by rw [log_mul (exp_pos _).ne' ht'.ne', log_exp]
  rw [h2, log_lt_log_iff (mul_pos (exp_pos _) ht') hu', mul_neg, neg_lt_neg_iff, ← log_rpow ht.1, log_lt_log_iff hu.1 (rpow_pos_of_pos ht.1 _)]

theorem wins_measurable (l : Fin n → ℝ) (x : Fin n) : MeasurableSet (wins l x) := by
  have : wins l x = (⋂ i, {u : Fin n → ℝ | u i ∈ Set.Ioo (0 : ℝ) 1}) ∩ ⋂ i, {u | i ≠ x → l i - log (-log (u i)) < l x - log (-log (u x))} := by
    ext u; simp [wins]
  rw [this]
  refine MeasurableSet.inter (MeasurableSet.iInter fun i => measurableSet_preimage (measurable_pi_apply i) measurableSet_Ioo) (MeasurableSet.iInter fun i => ?_)
  by_cases h : i = x
  · simp [h]
  · simp only [ne_eq, h, not_false_eq_true, true_implies]
    have m : ∀ k, Measurable fun u : Fin n → ℝ => l k - log (-log (u k)) := fun k => measurable_const.sub ((measurable_log.comp (measurable_pi_apply k)).neg.log)
    exact measurableSet_lt (m i) (m x)

theorem wins_volume {n : ℕ} (l : Fin (n + 1) → ℝ) (x : Fin (n + 1)) : volume (wins l x) = ENNReal.ofReal (softmax l x) := by
  set c : Fin n → ℝ := fun j => exp (l (x.succAbove j) - l x) with hc
  set s : Set (ℝ × (Fin n → ℝ)) := {q | q.1 ∈ Set.Ioo (0 : ℝ) 1 ∧ ∀ j, q.2 j ∈ Set.Ioo 0 (q.1 ^ c j)} with hs
  have hmeas : MeasurableSet s := by
    have : s = {q : ℝ × (Fin n → ℝ) | q.1 ∈ Set.Ioo (0 : ℝ) 1} ∩ ⋂ j, ({q : ℝ × (Fin n → ℝ) | 0 < q.2 j} ∩ {q | q.2 j < q.1 ^ c j}) := by
      ext q; simp [hs]
    rw [this]
    refine MeasurableSet.inter (measurableSet_preimage measurable_fst measurableSet_Ioo) (MeasurableSet.iInter fun j => MeasurableSet.inter ?_ ?_)
    · exact measurableSet_lt measurable_const ((measurable_pi_apply j).comp measurable_snd)
    · exact measurableSet_lt ((measurable_pi_apply j).comp measurable_snd) (measurable_fst.pow_const _)
  have hpre : wins l x = MeasurableEquiv.piFinSuccAbove (fun _ => ℝ) x ⁻¹' s := by
    ext u
    have hu : (MeasurableEquiv.piFinSuccAbove (fun _ => ℝ) x) u = (u x, fun j => u (x.succAbove j)) := rfl
    rw [Set.mem_preimage, hu]
    constructor
    · rintro ⟨h1, h2⟩
      exact ⟨h1 x, fun j => ⟨(h1 _).1, (gumbel_iff (h1 _) (h1 x)).1 (h2 _ (x.succAbove_ne j))⟩⟩
    · rintro ⟨h1, h2⟩
      have h3 : ∀ i, u i ∈ Set.Ioo (0 : ℝ) 1 := by
        intro i
        rcases Fin.eq_self_or_eq_succAbove x i with rfl | ⟨j, rfl⟩
        · exact h1
        · exact ⟨(h2 j).1, (h2 j).2.trans (rpow_lt_one h1.1.le h1.2 (exp_pos _))⟩
      refine ⟨h3, fun i hi => ?_⟩
      rcases Fin.eq_self_or_eq_succAbove x i with rfl | ⟨j, rfl⟩
      · exact absurd rfl hi
      · exact (gumbel_iff (h3 _) h1).2 (h2 j).2
  rw [hpre, (volume_preserving_piFinSuccAbove (fun _ : Fin (n + 1) => ℝ) x).measure_preimage hmeas.nullMeasurableSet, Measure.volume_eq_prod, Measure.prod_apply hmeas]
  have hslice : ∀ t, volume (Prod.mk t ⁻¹' s) = (Set.Ioo (0 : ℝ) 1).indicator (fun t => ENNReal.ofReal (t ^ ∑ j, c j)) t := by
    intro t
    by_cases ht : t ∈ Set.Ioo (0 : ℝ) 1
    · rw [Set.indicator_of_mem ht]
      have : Prod.mk t ⁻¹' s = Set.univ.pi fun j => Set.Ioo 0 (t ^ c j) := by
        ext v; simp only [hs, Set.mem_preimage, Set.mem_ofPred_eq, ht, true_and, Set.mem_pi, Set.mem_univ, true_implies]
      rw [this, volume_pi_pi]
      simp only [Real.volume_Ioo, sub_zero]
      rw [← ENNReal.ofReal_prod_of_nonneg fun j _ => rpow_nonneg ht.1.le _, rpow_sum_of_pos ht.1]
    · rw [Set.indicator_of_notMem ht]
      have : Prod.mk t ⁻¹' s = ∅ := by
        ext v; simp only [hs, Set.mem_preimage, Set.mem_ofPred_eq, ht, false_and, Set.mem_empty_iff_false]
      rw [this, measure_empty]
  simp only [hslice]
  rw [lintegral_indicator measurableSet_Ioo]
  have hC : 0 ≤ ∑ j, c j := Finset.sum_nonneg fun j _ => (exp_pos _).le
  have hint : IntegrableOn (fun t : ℝ => t ^ ∑ j, c j) (Set.Ioo 0 1) := by
    have := intervalIntegral.intervalIntegrable_rpow' (a := 0) (b := 1) (r := ∑ j, c j) (by linarith)
    rw [intervalIntegrable_iff_integrableOn_Ioo_of_le zero_le_one] at this
    exact this
  rw [← ofReal_integral_eq_lintegral_ofReal hint ((ae_restrict_iff' measurableSet_Ioo).2 (ae_of_all _ fun t ht => rpow_nonneg ht.1.le _)),
    ← integral_Ioc_eq_integral_Ioo, ← intervalIntegral.integral_of_le zero_le_one, integral_rpow (Or.inl (by linarith))]
  congr 1
  rw [one_rpow, zero_rpow (by linarith), sub_zero]
  unfold softmax
  rw [Fin.sum_univ_succAbove _ x]
  have : ∑ j, exp (l (x.succAbove j)) = exp (l x) * ∑ j, c j := by
    rw [Finset.mul_sum]
    refine Finset.sum_congr rfl fun j _ => ?_
    rw [hc, ← exp_add]
    congr 1
    ring
  rw [this]
  have := (exp_pos (l x)).ne'
  have h2 : (∑ j, c j) + 1 ≠ 0 := by linarith
  rw [div_eq_div_iff h2 (by
    rw [← mul_one_add]
    exact mul_ne_zero this (by linarith))]
  ring

/-- **C102.** The Gumbel trick: with independent uniform draws, category `x` is sampled with exactly its softmax probability. -/
theorem C102_cat_sample (l : Fin n → ℝ) (x : Fin n) :
    Measure.pi (fun _ : Fin n => (volume : Measure ℝ).restrict (Set.Ico 0 1)) {u | catSample l u = some x} = ENNReal.ofReal (exp (l x) / ∑ j, exp (l j)) := by
  obtain ⟨k, rfl⟩ : ∃ k, n = k + 1 := ⟨n - 1, by have := x.2; omega⟩
  have hμ : Measure.pi (fun _ : Fin (k + 1) => (volume : Measure ℝ).restrict (Set.Ico 0 1)) = (volume : Measure (Fin (k + 1) → ℝ)).restrict (Set.univ.pi fun _ => Set.Ioo 0 1) := by
    rw [volume_pi, Measure.restrict_pi_pi]
    congr 1
    funext _
    exact (Measure.restrict_congr_set Ioo_ae_eq_Ico).symm
  rw [hμ]
  set μ := (volume : Measure (Fin (k + 1) → ℝ)).restrict (Set.univ.pi fun _ => Set.Ioo 0 1) with hdef
  have hbox : MeasurableSet (Set.univ.pi fun _ : Fin (k + 1) => Set.Ioo (0 : ℝ) 1) := MeasurableSet.univ_pi fun _ => measurableSet_Ioo
  have hw : ∀ y, μ (wins l y) = ENNReal.ofReal (softmax l y) := by
    intro y
    have hss : wins l y ⊆ Set.univ.pi fun _ => Set.Ioo 0 1 := fun u hu i _ => hu.1 i
    rw [hdef, Measure.restrict_apply (wins_measurable l y), Set.inter_eq_left.2 hss, wins_volume]
  have hone : μ Set.univ = 1 := by
    rw [hdef, Measure.restrict_apply_univ, volume_pi_pi]
    simp
  have hsub : ∀ y, wins l y ⊆ {u | catSample l u = some y} := by
    intro y u hu
    refine argmax_spec.2 ⟨fun i => ?_, fun i hi => ?_⟩
    · by_cases h : i = y
      · rw [h]
      · exact (hu.2 i h).le
    · by_cases h : i = y
      · rw [h]
      · exact absurd hi (hu.2 i h).ne
  apply le_antisymm
  · have h1 : {u | catSample l u = some x} ⊆ (⋃ y ∈ Finset.univ.erase x, wins l y)ᶜ := by
      intro u hu hmem
      simp only [Set.mem_iUnion, Finset.mem_erase, Finset.mem_univ, and_true] at hmem
      obtain ⟨y, hy, hy2⟩ := hmem
      have := hsub y hy2
      rw [Set.mem_ofPred_eq] at hu this
      rw [hu, Option.some.injEq] at this
      exact hy this.symm
    refine (measure_mono h1).trans ?_
    have hmU : MeasurableSet (⋃ y ∈ Finset.univ.erase x, wins l y) := Finset.measurableSet_biUnion _ fun y _ => wins_measurable l y
    have hfin : μ (⋃ y ∈ Finset.univ.erase x, wins l y) ≠ ⊤ := ((measure_mono (Set.subset_univ _)).trans_lt (by rw [hone]; exact ENNReal.one_lt_top)).ne
    rw [measure_compl hmU hfin, hone, measure_biUnion_finset _ fun y _ => wins_measurable l y]
    · simp only [hw]
      rw [← ENNReal.ofReal_sum_of_nonneg fun y _ => (softmax_pos l y).le, ← ENNReal.ofReal_one, ← ENNReal.ofReal_sub _ (Finset.sum_nonneg fun y _ => (softmax_pos l y).le)]
      refine ENNReal.ofReal_le_ofReal ?_
      rw [← softmax_sum l (Nat.succ_pos k), ← Finset.add_sum_erase _ _ (Finset.mem_univ x), add_sub_cancel_right]
      rfl
    · intro y _ y' _ hne
      refine Set.disjoint_left.2 fun u h1 h2 => hne ?_
      have a := hsub y h1
      have b := hsub y' h2
      rw [Set.mem_ofPred_eq] at a b
      rw [a, Option.some.injEq] at b
      exact b
  · have := hw x
    unfold softmax at this
    rw [← this]
    exact measure_mono (hsub x)

end Categorical

/-! ### Multi-categorical -/

section Multi
variable {m : ℕ} {n : Fin m → ℕ}

/-- **C102.** Entry `i` of category `k` is entry `n 0 + ... + n (k - 1) + i` of the flat vector. -/
theorem C102_multi_split (flat : Fin (∑ k, n k) → ℝ) (k : Fin m) (i : Fin (n k)) (h : (∑ j : Fin k, n (Fin.castLE k.2.le j)) + i < ∑ k, n k) :
    block flat k i = flat ⟨(∑ j : Fin k, n (Fin.castLE k.2.le j)) + i, h⟩ := by
  unfold block
  congr 1
  apply Fin.ext
  rw [finSigmaFinEquiv_apply]

/-- Product of the softmax probabilities of the blocks. -/
noncomputable def joint (flat : Fin (∑ k, n k) → ℝ) (x : ∀ k, Fin (n k)) : ℝ := ∏ k, (exp (block flat k (x k)) / ∑ j, exp (block flat k j))

/-- **C102.** The components are independent: `exp (-neglogp)` is the product of the softmax probabilities, they sum to 1 over all combinations, `entropy` is the expected negative log probability
of the combination and `kl` the divergence of the joint distributions; `kl` is never negative, and 0 only for equal distributions. -/
theorem C102_multi (flat flat' : Fin (∑ k, n k) → ℝ) (hn : ∀ k, 0 < n k) :
    (∀ x : ∀ k, Fin (n k), exp (-multiNeglogp flat fun k => x k) = joint flat x) ∧ ∑ x, joint flat x = 1 ∧
    multiEntropy flat = ∑ x : ∀ k, Fin (n k), joint flat x * multiNeglogp flat (fun k => x k) ∧
    multiKl flat flat' = ∑ x : ∀ k, Fin (n k), joint flat x * log (joint flat x / joint flat' x) ∧
    0 ≤ multiKl flat flat' ∧ (multiKl flat flat' = 0 ↔ ∀ k, ∃ c, ∀ i, block flat' k i = block flat k i + c) := by
  have hj : ∀ (flat : Fin (∑ k, n k) → ℝ) (x : ∀ k, Fin (n k)), joint flat x = ∏ k, softmax (block flat k) (x k) := fun _ _ => rfl
  have hpos : ∀ (flat : Fin (∑ k, n k) → ℝ) (x : ∀ k, Fin (n k)), 0 < joint flat x := fun flat x => by rw [hj]; exact Finset.prod_pos fun k _ => softmax_pos _ _
  have hlog : ∀ (flat : Fin (∑ k, n k) → ℝ) (x : ∀ k, Fin (n k)), log (joint flat x) = ∑ k, log (softmax (block flat k) (x k)) := fun flat x => by
    rw [hj, log_prod fun k _ => (softmax_pos _ _).ne']
  have hnl : ∀ (flat : Fin (∑ k, n k) → ℝ) (x : ∀ k, Fin (n k)), multiNeglogp flat (fun k => x k) = -log (joint flat x) := fun flat x => by
    unfold multiNeglogp
    rw [hlog, ← Finset.sum_neg_distrib]
    exact Finset.sum_congr rfl fun k _ => catNeglogp_eq _ _
  have hs : ∀ k, ∑ i, softmax (block flat k) i = 1 := fun k => softmax_sum _ (hn k)
  refine ⟨fun x => by rw [hnl, neg_neg, exp_log (hpos flat x)], product_sum (fun k => softmax (block flat k)) hs, ?_, ?_, ?_, ?_⟩
  · have := product_expect (fun k => softmax (block flat k)) hs (fun k i => -log (softmax (block flat k) i))
    unfold multiEntropy
    rw [Finset.sum_congr rfl fun k _ => (C102_cat_entropy (block flat k) (hn k)).1]
    simp only [catNeglogp_eq]
    refine Eq.trans ?_ (this.symm.trans ?_)
    · rfl
    · refine Finset.sum_congr rfl fun x _ => ?_
      rw [hnl, hlog, ← Finset.sum_neg_distrib]
      rfl
  · have := product_expect (fun k => softmax (block flat k)) hs (fun k i => log (softmax (block flat k) i / softmax (block flat' k) i))
    unfold multiKl
    rw [Finset.sum_congr rfl fun k _ => (C102_cat_kl (block flat k) (block flat' k) (hn k)).1]
    refine Eq.trans ?_ (this.symm.trans ?_)
    · rfl
    · refine Finset.sum_congr rfl fun x _ => ?_
      rw [log_div (hpos _ _).ne' (hpos _ _).ne', hlog, hlog, ← Finset.sum_sub_distrib, Finset.sum_congr rfl fun k _ => log_div (softmax_pos _ _).ne' (softmax_pos _ _).ne']
      rfl
  · exact Finset.sum_nonneg fun k _ => (C102_cat_kl _ _ (hn k)).2.1
  · unfold multiKl
    rw [Finset.sum_eq_zero_iff_of_nonneg fun k _ => (C102_cat_kl _ _ (hn k)).2.1]
    exact ⟨fun h k => (C102_cat_kl _ _ (hn k)).2.2.1 (h k (Finset.mem_univ k)), fun h k _ => (C102_cat_kl _ _ (hn k)).2.2.2 (h k)⟩

/-- **C102.** The mode is a most probable combination. -/
theorem C102_multi_mode (flat : Fin (∑ k, n k) → ℝ) (hn : ∀ k, 0 < n k) :
    ∃ x : ∀ k, Fin (n k), (∀ k, multiMode flat k = some (x k)) ∧ ∀ y : ∀ k, Fin (n k), multiNeglogp flat (fun k => x k) ≤ multiNeglogp flat (fun k => y k) := by
  choose x hx using fun k => C102_cat_mode (block flat k) (hn k)
  exact ⟨x, fun k => (hx k).1, fun y => Finset.sum_le_sum fun k _ => (hx k).2.1 (y k)⟩

end Multi

/-! ### Bernoulli -/

section Bernoulli
variable {n : ℕ}

theorem sigmoid_pos (l : ℝ) : 0 < sigmoid l := by unfold sigmoid; positivity

theorem sigmoid_lt (l : ℝ) : sigmoid l < 1 := by
  unfold sigmoid
  rw [div_lt_one (by positivity)]
  linarith [exp_pos (-l)]

theorem sigmoid_inj {l l' : ℝ} : sigmoid l = sigmoid l' ↔ l = l' := by
  constructor
  · intro h
    unfold sigmoid at h
    rw [one_div, one_div, inv_inj] at h
    have := exp_injective (add_left_cancel h)
    linarith
  · rintro rfl; rfl

theorem xent_log (l z : ℝ) : sigmoidXent l z = -(z * log (sigmoid l) + (1 - z) * log (1 - sigmoid l)) := by
  have h1 : log (sigmoid l) = -log (1 + exp (-l)) := by unfold sigmoid; rw [one_div, log_inv]
  have h2 : log (1 - sigmoid l) = -l - log (1 + exp (-l)) := by
    have : 1 - sigmoid l = exp (-l) / (1 + exp (-l)) := by
      unfold sigmoid
      have : (1 + exp (-l)) ≠ 0 := by positivity
      field_simp
      ring
    rw [this, log_div (exp_pos _).ne' (by positivity), log_exp]
  have h3 : max l 0 + log (1 + exp (-|l|)) = l + log (1 + exp (-l)) := by
    rcases le_total 0 l with h | h
    · rw [max_eq_left h, abs_of_nonneg h]
    · rw [max_eq_right h, abs_of_nonpos h, neg_neg, zero_add]
      have : 1 + exp l = exp l * (1 + exp (-l)) := by
        rw [mul_add, mul_one, ← exp_add]; simp [add_comm]
      rw [this, log_mul (exp_pos _).ne' (by positivity), log_exp]
  unfold sigmoidXent
  rw [h1, h2]
  linear_combination h3

/-- Probability of the outcome `b` of one coin. -/
noncomputable def coin (l : ℝ) (b : Bool) : ℝ := if b then 1 / (1 + exp (-l)) else 1 - 1 / (1 + exp (-l))

theorem coin_pos (l : ℝ) (b : Bool) : 0 < coin l b := by
  unfold coin
  cases b
  · simpa [sigmoid] using sigmoid_lt l
  · simpa [sigmoid] using sigmoid_pos l

theorem coin_sum (l : ℝ) : ∑ b, coin l b = 1 := by simp [coin]

theorem xent_coin (l : ℝ) (b : Bool) : sigmoidXent l (if b then 1 else 0) = -log (coin l b) := by
  rw [xent_log]
  cases b <;> simp [coin, sigmoid]

theorem xent_expect (l l' : ℝ) : sigmoidXent l' (sigmoid l) = ∑ b, coin l b * -log (coin l' b) := by
  rw [xent_log]
  simp [coin, sigmoid]

/-- **C102.** Independent coins: `exp (-neglogp)` of a 0/1 vector is the product of the probabilities, they sum to 1, `entropy` is the expected negative log probability, `kl` the divergence
of the joint distributions, never negative and 0 only for equal logits. -/
theorem C102_bernoulli (l l' : Fin n → ℝ) :
    (∀ x : Fin n → Bool, exp (-berNeglogp l fun i => if x i then 1 else 0) = ∏ i, coin (l i) (x i)) ∧ ∑ x : Fin n → Bool, ∏ i, coin (l i) (x i) = 1 ∧
    berEntropy l = ∑ x : Fin n → Bool, (∏ i, coin (l i) (x i)) * berNeglogp l (fun i => if x i then 1 else 0) ∧
    berKl l l' = ∑ x : Fin n → Bool, (∏ i, coin (l i) (x i)) * log ((∏ i, coin (l i) (x i)) / ∏ i, coin (l' i) (x i)) ∧
    0 ≤ berKl l l' ∧ (berKl l l' = 0 ↔ l = l') := by
  have hpos : ∀ (l : Fin n → ℝ) (x : Fin n → Bool), 0 < ∏ i, coin (l i) (x i) := fun l x => Finset.prod_pos fun k _ => coin_pos _ _
  have hlog : ∀ (l : Fin n → ℝ) (x : Fin n → Bool), log (∏ i, coin (l i) (x i)) = ∑ i, log (coin (l i) (x i)) := fun l x => log_prod fun k _ => (coin_pos _ _).ne'
  have hnl : ∀ (l : Fin n → ℝ) (x : Fin n → Bool), berNeglogp l (fun i => if x i then 1 else 0) = -log (∏ i, coin (l i) (x i)) := fun l x => by
    unfold berNeglogp
    rw [hlog, ← Finset.sum_neg_distrib]
    exact Finset.sum_congr rfl fun k _ => xent_coin _ _
  have hkl : berKl l l' = ∑ i, ∑ b, coin (l i) b * (log (coin (l i) b) - log (coin (l' i) b)) := by
    unfold berKl
    rw [← Finset.sum_sub_distrib]
    refine Finset.sum_congr rfl fun i _ => ?_
    rw [xent_expect, xent_expect, ← Finset.sum_sub_distrib]
    exact Finset.sum_congr rfl fun b _ => by ring
  have hg := fun i => gibbs (coin_pos (l i)) (coin_pos (l' i)) (coin_sum (l i)) (coin_sum (l' i))
  refine ⟨fun x => by rw [hnl, neg_neg, exp_log (hpos l x)], product_sum (fun i => coin (l i)) (fun i => coin_sum _), ?_, ?_, ?_, ?_⟩
  · have := product_expect (fun i => coin (l i)) (fun i => coin_sum _) (fun i b => -log (coin (l i) b))
    unfold berEntropy
    rw [Finset.sum_congr rfl fun i _ => xent_expect (l i) (l i), ← this]
    refine Finset.sum_congr rfl fun x _ => ?_
    rw [hnl, hlog, ← Finset.sum_neg_distrib]
  · have := product_expect (fun i => coin (l i)) (fun i => coin_sum _) (fun i b => log (coin (l i) b) - log (coin (l' i) b))
    rw [hkl, ← this]
    refine Finset.sum_congr rfl fun x _ => ?_
    rw [log_div (hpos _ _).ne' (hpos _ _).ne', hlog, hlog, ← Finset.sum_sub_distrib]
  · rw [hkl]
    exact Finset.sum_nonneg fun i _ => (hg i).1
  · rw [hkl, Finset.sum_eq_zero_iff_of_nonneg fun i _ => (hg i).1]
    constructor
    · intro h
      funext i
      have := (hg i).2.1 (h i (Finset.mem_univ i))
      have h1 : coin (l i) true = coin (l' i) true := by rw [this]
      exact sigmoid_inj.1 (by simpa [coin, sigmoid] using h1)
    · rintro rfl i _
      simp

/-- **C102.** Sampling: the coins fall independently, each with its probability. -/
theorem C102_bernoulli_sample (l : Fin n → ℝ) (x : Fin n → Bool) :
    Measure.pi (fun _ : Fin n => (volume : Measure ℝ).restrict (Set.Ico 0 1)) {u | ∀ i, berSample l u i = if x i then 1 else 0} = ENNReal.ofReal (∏ i, coin (l i) (x i)) := by
  have hset : {u : Fin n → ℝ | ∀ i, berSample l u i = if x i then 1 else 0} = Set.univ.pi fun i => if x i then Set.Iio (sigmoid (l i)) else Set.Ici (sigmoid (l i)) := by
    ext u
    simp only [Set.mem_ofPred_eq, Set.mem_pi, Set.mem_univ, true_implies]
    refine forall_congr' fun i => ?_
    unfold berSample
    cases x i <;> by_cases h : u i < sigmoid (l i) <;> simp [h]
    exact not_lt.1 h
  rw [hset, Measure.pi_pi, ENNReal.ofReal_prod_of_nonneg fun i _ => (coin_pos _ _).le]
  refine Finset.prod_congr rfl fun i _ => ?_
  have h0 := sigmoid_pos (l i)
  have h1 := sigmoid_lt (l i)
  cases hx : x i
  · rw [if_neg (by simp), Measure.restrict_apply measurableSet_Ici]
    have : Set.Ici (sigmoid (l i)) ∩ Set.Ico 0 1 = Set.Ico (sigmoid (l i)) 1 := by
      ext t; simp only [Set.mem_inter_iff, Set.mem_Ici, Set.mem_Ico]; constructor
      · rintro ⟨a, b, c⟩; exact ⟨a, c⟩
      · rintro ⟨a, c⟩; exact ⟨a, h0.le.trans a, c⟩
    rw [this, Real.volume_Ico]
    rfl
  · rw [if_pos rfl, Measure.restrict_apply measurableSet_Iio]
    have : Set.Iio (sigmoid (l i)) ∩ Set.Ico 0 1 = Set.Ico 0 (sigmoid (l i)) := by
      ext t; simp only [Set.mem_inter_iff, Set.mem_Iio, Set.mem_Ico]; constructor
      · rintro ⟨a, b, c⟩; exact ⟨b, a⟩
      · rintro ⟨a, c⟩; exact ⟨c, a, c.trans h1⟩
    rw [this, Real.volume_Ico, sub_zero]
    rfl

/-- **C102.** The mode is a most probable 0/1 vector. -/
theorem C102_bernoulli_mode (l : Fin n → ℝ) : ∃ x : Fin n → Bool, (∀ i, berMode l i = if x i then 1 else 0) ∧ ∀ y : Fin n → Bool, ∏ i, coin (l i) (y i) ≤ ∏ i, coin (l i) (x i) := by
  refine ⟨fun i => !decide (sigmoid (l i) ≤ 1 / 2), fun i => ?_, fun y => Finset.prod_le_prod (fun i _ => (coin_pos _ _).le) fun i _ => ?_⟩
  · unfold berMode
    by_cases h : sigmoid (l i) ≤ 1 / 2
    · show _ = if (!decide (sigmoid (l i) ≤ 1 / 2)) = true then (1 : ℝ) else 0
      rw [if_pos h, decide_eq_true h]; rfl
    · show _ = if (!decide (sigmoid (l i) ≤ 1 / 2)) = true then (1 : ℝ) else 0
      rw [if_neg h, decide_eq_false h]; rfl
  · have ht : coin (l i) true = sigmoid (l i) := rfl
    have hf : coin (l i) false = 1 - sigmoid (l i) := rfl
    by_cases h : sigmoid (l i) ≤ 1 / 2
    · simp only [h, decide_true, Bool.not_true]
      cases y i
      · exact le_refl _
      · rw [ht, hf]; linarith
    · simp only [h, decide_false, Bool.not_false]
      cases y i
      · rw [ht, hf]; linarith
      · exact le_refl _

end Bernoulli

/-! ### Diagonal Gaussian -/

section Gauss
variable {n : ℕ}

/-- The variance of coordinate `i`. -/
noncomputable def var (flat : Fin (n + n) → ℝ) (i : Fin n) : NNReal := ⟨std flat i ^ 2, sq_nonneg _⟩

theorem std_pos (flat : Fin (n + n) → ℝ) (i : Fin n) : 0 < std flat i := exp_pos _

theorem var_coe (flat : Fin (n + n) → ℝ) (i : Fin n) : ((var flat i : NNReal) : ℝ) = std flat i ^ 2 := rfl

theorem var_ne (flat : Fin (n + n) → ℝ) (i : Fin n) : var flat i ≠ 0 := by
  intro h
  have : ((var flat i : NNReal) : ℝ) = 0 := by rw [h]; rfl
  rw [var_coe] at this
  exact (pow_pos (std_pos flat i) 2).ne' this

/-- The law of independent Gaussians with the given means and standard deviations `exp (logstd)`. -/
noncomputable def law (flat : Fin (n + n) → ℝ) : Measure (Fin n → ℝ) := Measure.pi fun i => gaussianReal (mean flat i) (var flat i)

/-- One coordinate of `neglogp`. -/
noncomputable def nl1 (flat : Fin (n + n) → ℝ) (i : Fin n) (t : ℝ) : ℝ := (t - mean flat i) ^ 2 / (2 * std flat i ^ 2) + (0.5 * log (2 * π) + logstd flat i)

theorem gaussNeglogp_sum (flat : Fin (n + n) → ℝ) (x : Fin n → ℝ) : gaussNeglogp flat x = ∑ i, nl1 flat i (x i) := by
  unfold gaussNeglogp nl1
  rw [Finset.sum_add_distrib, Finset.sum_add_distrib, Finset.mul_sum]
  simp only [Finset.sum_const, Finset.card_univ, Fintype.card_fin, nsmul_eq_mul]
  have : ∀ i, 0.5 * ((x i - mean flat i) / std flat i) ^ 2 = (x i - mean flat i) ^ 2 / (2 * std flat i ^ 2) := by
    intro i
    have := (std_pos flat i).ne'
    field_simp
    norm_num
    ring
  rw [Finset.sum_congr rfl fun i _ => this i]
  ring

theorem pdf_eq (flat : Fin (n + n) → ℝ) (i : Fin n) (t : ℝ) : exp (-nl1 flat i t) = gaussianPDFReal (mean flat i) (var flat i) t := by
  unfold nl1 gaussianPDFReal
  rw [var_coe, neg_add, exp_add, mul_comm, neg_div]
  congr 1
  rw [neg_add, exp_add, ← log_exp (logstd flat i)]
  change _ * exp (-log (std flat i)) = _
  rw [exp_neg, exp_neg, exp_log (std_pos flat i), sqrt_mul (by positivity), sqrt_sq (std_pos flat i).le, mul_inv]
  congr 2
  rw [sqrt_eq_rpow, rpow_def_of_pos (by positivity)]
  congr 1
  norm_num
  ring

/-- **C102.** `exp (-neglogp)` is the density of independent Gaussians whose standard deviations are `exp (logstd)`. -/
theorem C102_gauss_density (flat : Fin (n + n) → ℝ) (x : Fin n → ℝ) :
    exp (-gaussNeglogp flat x) = ∏ i, gaussianPDFReal (flat (Fin.castAdd n i)) ⟨exp (flat (Fin.natAdd n i)) ^ 2, sq_nonneg _⟩ (x i) := by
  rw [gaussNeglogp_sum, ← Finset.sum_neg_distrib, exp_sum]
  exact Finset.prod_congr rfl fun i _ => pdf_eq flat i (x i)

/-- **C102.** Sampling draws from this law. -/
theorem C102_gauss_sample (flat : Fin (n + n) → ℝ) : (Measure.pi fun _ : Fin n => gaussianReal 0 1).map (gaussSample flat) = law flat := by
  have h : ∀ i, (gaussianReal 0 1).map (fun g => mean flat i + std flat i * g) = gaussianReal (mean flat i) (var flat i) := by
    intro i
    have e : (fun g => mean flat i + std flat i * g) = (fun y => mean flat i + y) ∘ fun g => std flat i * g := rfl
    rw [e, ← Measure.map_map (by fun_prop) (by fun_prop), gaussianReal_map_const_mul, gaussianReal_map_const_add]
    congr 1
    · ring
    · rw [mul_one]; rfl
  unfold law
  have e := Measure.pi_map_pi (μ := fun _ : Fin n => gaussianReal 0 1) (f := fun i g => mean flat i + std flat i * g) (fun i => by fun_prop)
  have e2 : (fun i => (gaussianReal 0 1).map (fun g => mean flat i + std flat i * g)) = fun i => gaussianReal (mean flat i) (var flat i) := funext h
  rw [← e2]
  exact e

theorem nl1_integral (flat flat' : Fin (n + n) → ℝ) (i : Fin n) :
    Integrable (nl1 flat' i) (gaussianReal (mean flat i) (var flat i)) ∧
    ∫ t, nl1 flat' i t ∂gaussianReal (mean flat i) (var flat i) = (std flat i ^ 2 + (mean flat i - mean flat' i) ^ 2) / (2 * std flat' i ^ 2) + (0.5 * log (2 * π) + logstd flat' i) := by
  set μ := gaussianReal (mean flat i) (var flat i) with hμ
  have hid : MemLp (fun t : ℝ => t) 2 μ := memLp_id_gaussianReal' 2 (by simp)
  have hsub : ∀ c : ℝ, MemLp (fun t : ℝ => t - c) 2 μ := fun c => hid.sub (memLp_const c)
  have hsq : ∀ c : ℝ, Integrable (fun t : ℝ => (t - c) ^ 2) μ := fun c => (hsub c).integrable_sq
  have h1 : Integrable (fun t : ℝ => t) μ := hid.integrable (by norm_num)
  have hv : ∫ t, (t - mean flat i) ^ 2 ∂μ = std flat i ^ 2 := by
    have := variance_fun_id_gaussianReal (μ := mean flat i) (v := var flat i)
    rw [variance_eq_integral (by fun_prop), integral_id_gaussianReal] at this
    rw [this, var_coe]
  have hm : ∫ t, (t - mean flat' i) ^ 2 ∂μ = std flat i ^ 2 + (mean flat i - mean flat' i) ^ 2 := by
    have e : ∀ t : ℝ, (t - mean flat' i) ^ 2 = (t - mean flat i) ^ 2 + (2 * (mean flat i - mean flat' i) * (t - mean flat i) + (mean flat i - mean flat' i) ^ 2) := fun t => by ring
    have hc : Integrable (fun t : ℝ => t - mean flat i) μ := h1.sub (integrable_const _)
    have hlin : Integrable (fun t : ℝ => 2 * (mean flat i - mean flat' i) * (t - mean flat i) + (mean flat i - mean flat' i) ^ 2) μ := (hc.const_mul _).add (integrable_const _)
    rw [integral_congr_ae (ae_of_all _ e), integral_add (hsq _) hlin, integral_add (hc.const_mul _) (integrable_const _), integral_const_mul,
      integral_sub h1 (integrable_const _), hμ, integral_id_gaussianReal, ← hμ, hv]
    simp
  unfold nl1
  refine ⟨((hsq _).div_const _).add (integrable_const _), ?_⟩
  rw [integral_add ((hsq _).div_const _) (integrable_const _), integral_div, hm]
  simp

/-- **C102.** `entropy` is the expectation of `neglogp` under the law, `kl` the expectation of the log density ratio. -/
theorem C102_gauss_entropy_kl (flat flat' : Fin (n + n) → ℝ) :
    gaussEntropy flat = ∫ x, gaussNeglogp flat x ∂law flat ∧ gaussKl flat flat' = ∫ x, (gaussNeglogp flat' x - gaussNeglogp flat x) ∂law flat := by
  have hI : ∀ (flat' : Fin (n + n) → ℝ) i, Integrable (fun x : Fin n → ℝ => nl1 flat' i (x i)) (law flat) := fun flat' i => by
    unfold law
    exact integrable_comp_eval (nl1_integral flat flat' i).1
  have hE : ∀ (flat' : Fin (n + n) → ℝ), ∫ x, gaussNeglogp flat' x ∂law flat = ∑ i, ((std flat i ^ 2 + (mean flat i - mean flat' i) ^ 2) / (2 * std flat' i ^ 2) + (0.5 * log (2 * π) + logstd flat' i)) := by
    intro flat'
    simp only [gaussNeglogp_sum]
    rw [integral_finsetSum _ fun i _ => hI flat' i]
    refine Finset.sum_congr rfl fun i _ => ?_
    rw [← (nl1_integral flat flat' i).2]
    unfold law
    exact integral_comp_eval (nl1_integral flat flat' i).1.aestronglyMeasurable
  have hself : ∀ i, (std flat i ^ 2 + (mean flat i - mean flat i) ^ 2) / (2 * std flat i ^ 2) = 0.5 := by
    intro i
    have := (std_pos flat i).ne'
    rw [sub_self]
    field_simp
    norm_num
    ring
  have hint : ∀ flat' : Fin (n + n) → ℝ, Integrable (fun x => gaussNeglogp flat' x) (law flat) := by
    intro flat'
    simp only [gaussNeglogp_sum]
    exact integrable_finsetSum _ fun i _ => hI flat' i
  constructor
  · rw [hE flat]
    unfold gaussEntropy
    refine Finset.sum_congr rfl fun i _ => ?_
    rw [hself i, log_mul (by positivity) (exp_pos _).ne', log_exp]
    ring
  · rw [integral_sub (hint flat') (hint flat), hE, hE, ← Finset.sum_sub_distrib]
    unfold gaussKl
    refine Finset.sum_congr rfl fun i _ => ?_
    rw [hself i]
    ring

/-- **C102.** The divergence is never negative, and 0 only for equal parameters. -/
theorem C102_gauss_kl (flat flat' : Fin (n + n) → ℝ) : 0 ≤ gaussKl flat flat' ∧ (gaussKl flat flat' = 0 ↔ flat = flat') := by
  have key : ∀ i, let a := logstd flat' i - logstd flat i; let b := (std flat i ^ 2 + (mean flat i - mean flat' i) ^ 2) / (2 * std flat' i ^ 2)
      0 ≤ a + b - 0.5 ∧ (a + b - 0.5 = 0 → mean flat i = mean flat' i ∧ logstd flat i = logstd flat' i) := by
    intro i a b
    have hs := std_pos flat' i
    have hb : b = exp (-(2 * a)) / 2 + (mean flat i - mean flat' i) ^ 2 / (2 * std flat' i ^ 2) := by
      have : exp (-(2 * a)) = std flat i ^ 2 / std flat' i ^ 2 := by
        unfold std
        rw [← exp_nat_mul, ← exp_nat_mul, ← exp_sub]
        congr 1
        simp only [a]
        push_cast
        ring
      rw [this]
      simp only [b]
      have := hs.ne'
      field_simp
    have hq : 0 ≤ (mean flat i - mean flat' i) ^ 2 / (2 * std flat' i ^ 2) := by positivity
    have he := add_one_le_exp (-(2 * a))
    refine ⟨by rw [hb]; norm_num; linarith, fun h0 => ?_⟩
    rw [hb] at h0
    have ha : a = 0 := by
      by_contra hne
      have := add_one_lt_exp (x := -(2 * a)) (by intro h; exact hne (by linarith))
      norm_num at h0
      linarith
    have hm : (mean flat i - mean flat' i) ^ 2 / (2 * std flat' i ^ 2) = 0 := by
      rw [ha] at h0
      norm_num at h0
      rcases h0 with h0 | h0
      · rw [h0]; norm_num
      · exact absurd h0 hs.ne'
    have hm2 : (mean flat i - mean flat' i) ^ 2 = 0 := (div_eq_zero_iff.1 hm).resolve_right (by positivity)
    exact ⟨by linarith [pow_eq_zero_iff (two_ne_zero) |>.1 hm2], by simp only [a] at ha; linarith⟩
  have hsum : gaussKl flat flat' = ∑ i, (logstd flat' i - logstd flat i + (std flat i ^ 2 + (mean flat i - mean flat' i) ^ 2) / (2 * std flat' i ^ 2) - 0.5) := rfl
  refine ⟨by rw [hsum]; exact Finset.sum_nonneg fun i _ => (key i).1, fun h => ?_, ?_⟩
  · rw [hsum, Finset.sum_eq_zero_iff_of_nonneg fun i _ => (key i).1] at h
    funext j
    refine Fin.addCases (fun i => ?_) (fun i => ?_) j
    · exact ((key i).2 (h i (Finset.mem_univ i))).1
    · exact ((key i).2 (h i (Finset.mem_univ i))).2
  · rintro rfl
    unfold gaussKl
    refine Finset.sum_eq_zero fun i _ => ?_
    have := (std_pos flat i).ne'
    rw [sub_self, sub_self]
    field_simp
    norm_num
    ring

/-- **C102.** The mode of the class is the mean, where the density is greatest, and only there. -/
theorem C102_gauss_mode (flat : Fin (n + n) → ℝ) (x : Fin n → ℝ) : gaussNeglogp flat (mean flat) ≤ gaussNeglogp flat x ∧ (gaussNeglogp flat (mean flat) = gaussNeglogp flat x → x = mean flat) := by
  have h : gaussNeglogp flat x - gaussNeglogp flat (mean flat) = 0.5 * ∑ i, ((x i - mean flat i) / std flat i) ^ 2 := by
    unfold gaussNeglogp
    simp
  have hn : 0 ≤ ∑ i, ((x i - mean flat i) / std flat i) ^ 2 := Finset.sum_nonneg fun i _ => sq_nonneg _
  refine ⟨by norm_num at h; linarith, fun e => ?_⟩
  have h0 : ∑ i, ((x i - mean flat i) / std flat i) ^ 2 = 0 := by norm_num at h; linarith
  rw [Finset.sum_eq_zero_iff_of_nonneg fun i _ => sq_nonneg _] at h0
  funext i
  have := (pow_eq_zero_iff two_ne_zero).1 (h0 i (Finset.mem_univ i))
  rcases div_eq_zero_iff.1 this with h1 | h1
  · linarith
  · exact absurd h1 (std_pos flat i).ne'

end Gauss

/-! ### Concrete cases -/

/-- Logits `0` and `log 3`: probabilities 1/4 and 3/4; action 2 does not exist and has "probability" 1. -/
example : exp (-catNeglogp ![0, log 3] (0 : Fin 2)) = 1 / 4 ∧ exp (-catNeglogp ![0, log 3] (1 : Fin 2)) = 3 / 4 ∧ exp (-catNeglogp ![0, log 3] 2) = 1 := by
  refine ⟨?_, ?_, C102_cat_invalid _ (by norm_num)⟩
  · rw [(C102_cat_prob ![0, log 3] 0).1, Fin.sum_univ_two]
    simp [exp_log]
    norm_num
  · rw [(C102_cat_prob ![0, log 3] 1).1, Fin.sum_univ_two]
    simp [exp_log]
    norm_num

/-- The second category is sampled with probability 3/4. -/
example : Measure.pi (fun _ : Fin 2 => (volume : Measure ℝ).restrict (Set.Ico 0 1)) {u | catSample ![0, log 3] u = some 1} = ENNReal.ofReal (3 / 4) := by
  rw [C102_cat_sample, Fin.sum_univ_two]
  simp [exp_log]
  norm_num

/-- Two different distributions. -/
example : 0 < catKl ![0, log 3] ![(0 : ℝ), 0] := by
  obtain ⟨_, h2, h3⟩ := C102_cat_kl ![0, log 3] ![(0 : ℝ), 0] (by norm_num)
  refine lt_of_le_of_ne h2 fun h => ?_
  obtain ⟨c, hc⟩ := h3.1 h.symm
  have a := hc 0
  have b := hc 1
  simp at a b
  have : (0 : ℝ) < log 3 := log_pos (by norm_num)
  linarith

/-- Two Gaussians of different mean. -/
example : 0 < gaussKl (n := 1) ![0, 0] ![1, 0] := by
  obtain ⟨h2, h3⟩ := C102_gauss_kl (n := 1) ![0, 0] ![1, 0]
  refine lt_of_le_of_ne h2 fun h => ?_
  have := congrFun (h3.1 h.symm) 0
  simp at this

end Neorl.Dist
