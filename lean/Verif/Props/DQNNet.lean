import Verif.DQNNet
import Verif.Props.QLoss

/-!
# C129: the network of DQN and its predictions
-/

set_option linter.unusedSectionVars false
set_option linter.unusedVariables false

namespace Neorl.DQNNet

open Real Neorl.Dist Neorl.ActProb

/-! ### Layers -/

theorem affine_ofFn {n : ℕ} (d : Dense) (x : Fin n → ℝ) (j : ℕ) : affine d (List.ofFn x) j = (∑ i, x i * d.w i j) + d.b j := by
  unfold affine
  congr 1
  have : (List.ofFn x).zipIdx = List.ofFn fun i => (x i, (i : ℕ)) := by
    apply List.ext_getElem <;> simp
  rw [this, List.map_ofFn, List.sum_ofFn]
  rfl

theorem dense_ofFn {n : ℕ} (d : Dense) (k : ℕ) (x : Fin n → ℝ) : dense d k (List.ofFn x) = List.ofFn fun j : Fin k => (∑ i, x i * d.w i j) + d.b j := by
  apply List.ext_getElem
  · simp [dense]
  · intro i h1 h2
    simp [dense, affine_ofFn]

theorem hidden_ofFn {n : ℕ} (act : ℝ → ℝ) (d : Dense) (k : ℕ) (x : Fin n → ℝ) :
    hidden false act d k (List.ofFn x) = List.ofFn fun j : Fin k => act ((∑ i, x i * d.w i j) + d.b j) := by
  unfold hidden
  rw [if_neg (by simp), dense_ofFn, List.map_ofFn]
  rfl

/-- **C129.** The default network of `MlpPolicy` with two layers, written out: the scores of the actions from their own two layers, the value of the state from two more; the value of an action is the value of the state plus its score less
the mean score. -/
theorem C129_two_layers {n m : ℕ} (θ : Vars) (act : ℝ → ℝ) (ext : List ℝ → List ℝ) (k l : ℕ) (x : Fin n → ℝ) :
    let h := fun j : Fin k => act ((∑ i, x i * (θ.action 0).w i j) + (θ.action 0).b j)
    let h' := fun j : Fin l => act ((∑ i, h i * (θ.action 1).w i j) + (θ.action 1).b j)
    let s := fun j : Fin m => (∑ i, h' i * (θ.action 2).w i j) + (θ.action 2).b j
    let g := fun j : Fin k => act ((∑ i, x i * (θ.value 0).w i j) + (θ.value 0).b j)
    let g' := fun j : Fin l => act ((∑ i, g i * (θ.value 1).w i j) + (θ.value 1).b j)
    let v := (∑ i, g' i * (θ.value 2).w i 0) + (θ.value 2).b 0
    (∀ i, qValues θ act ext ⟨false, [k, l], false, false⟩ m (List.ofFn x) i = s i) ∧
    ∀ i, qValues θ act ext ⟨false, [k, l], false, true⟩ m (List.ofFn x) i = v + (s i - (∑ j, s j) / m) := by
  intro h h' s g g' v
  have hs : ∀ b, scores θ act ext ⟨false, [k, l], false, b⟩ m (List.ofFn x) = s := by
    intro b
    funext i
    simp only [scores, stream, List.length_cons, List.length_nil, hidden_ofFn, affine_ofFn, Bool.false_eq_true, if_false]
    rfl
  have hv : stateScore θ act ext ⟨false, [k, l], false, true⟩ (List.ofFn x) = v := by
    simp only [stateScore, stream, List.length_cons, List.length_nil, hidden_ofFn, affine_ofFn, Bool.false_eq_true, if_false]
    rfl
  refine ⟨fun i => ?_, fun i => ?_⟩
  · simp only [qValues, Bool.false_eq_true, if_false, hs]
  · simp only [qValues, if_true, hs, hv, QLoss.dueling]

/-- **C129.** The network of `CnnPolicy`: one layer for the scores of the actions, directly after the features of the CNN, whatever `layers` is; the hidden layers are those of the value of the state. -/
theorem C129_cnn {n m : ℕ} (θ : Vars) (act : ℝ → ℝ) (ext : List ℝ → List ℝ) (k : ℕ) (x : List ℝ) (e : Fin n → ℝ) (he : ext x = List.ofFn e) :
    let s := fun j : Fin m => (∑ i, e i * (θ.action 0).w i j) + (θ.action 0).b j
    let g := fun j : Fin k => act ((∑ i, e i * (θ.value 0).w i j) + (θ.value 0).b j)
    let v := (∑ i, g i * (θ.value 1).w i 0) + (θ.value 1).b 0
    (∀ layers ln i, qValues θ act ext ⟨true, layers, ln, false⟩ m x i = s i) ∧
    ∀ i, qValues θ act ext ⟨true, [k], false, true⟩ m x i = v + (s i - (∑ j, s j) / m) := by
  intro s g v
  have hs : ∀ layers ln b, scores θ act ext ⟨true, layers, ln, b⟩ m x = s := by
    intro layers ln b
    funext i
    simp only [scores, he, affine_ofFn, if_true]
    rfl
  have hv : stateScore θ act ext ⟨true, [k], false, true⟩ x = v := by
    simp only [stateScore, stream, he, List.length_cons, List.length_nil, hidden_ofFn, affine_ofFn, if_true]
    rfl
  refine ⟨fun layers ln i => ?_, fun i => ?_⟩
  · simp only [qValues, Bool.false_eq_true, if_false, hs]
  · simp only [qValues, if_true, hs, hv, QLoss.dueling]

/-- **C129.** The policies: what each makes of its keywords. -/
theorem C129_build (a : Args) (hc : a.clash = false) (he : a.extra = false) :
    build .mlp true a = .ok ⟨false, a.layers.getD [64, 64], false, a.dueling.getD true⟩ ∧ build .cnn true a = .ok ⟨true, a.layers.getD [64, 64], false, a.dueling.getD true⟩ ∧
    build .lnCnn true a = .ok ⟨true, a.layers.getD [64, 64], true, a.dueling.getD true⟩ ∧ build .lnMlp true { a with dueling := none } = .ok ⟨false, a.layers.getD [64, 64], true, true⟩ := by
  simp [build, feedForward, hc, he]

/-- **C129.** Only discrete actions; keywords that the policy fixes itself are refused, unknown ones where there is no CNN. -/
theorem C129_refused (cls : Cls) (a : Args) :
    (a.clash = true → ∀ d, build cls d a = .error .typeError) ∧ (a.clash = false → build cls false a = .error .assertion) ∧
    (a.clash = false → a.extra = true → (build cls true a = .error .valueError ↔ cls = .mlp ∨ cls = .lnMlp)) := by
  refine ⟨fun h d => by simp [build, h], fun h => ?_, fun h h' => ?_⟩
  · cases cls <;> simp [build, feedForward, h]
  · cases cls <;> simp [build, feedForward, h, h']

/-- **C129 (defect).** `LnMlpPolicy` ignores `dueling=False`. -/
theorem C129_dueling_ignored (a : Args) (d d' : Option Bool) (disc : Bool) : build .lnMlp disc { a with dueling := d } = build .lnMlp disc { a with dueling := d' } ∧
    (a.clash = false → a.extra = false → ∃ c, build .lnMlp true { a with dueling := some false } = .ok c ∧ c.dueling = true) := by
  refine ⟨rfl, fun h h' => ?_⟩
  simp [build, feedForward, h, h']

/-! ### The dueling head -/

/-- Adding the same number to every value does not change the probabilities. -/
theorem softmax_shift {m : ℕ} {q q' : Fin m → ℝ} {t : ℝ} (h : ∀ i, q' i = t + q i) : softmax q' = softmax q := by
  funext i
  unfold softmax
  simp only [h, Real.exp_add, ← Finset.mul_sum]
  rw [mul_div_mul_left _ _ (Real.exp_pos t).ne']

theorem argmax_shift {m : ℕ} {q q' : Fin m → ℝ} {t : ℝ} (h : ∀ i, q' i = t + q i) : argmax q' = argmax q := by
  ext x
  rw [argmax_spec, argmax_spec]
  simp [h]

theorem greedy_shift {m : ℕ} {q q' : Fin m → ℝ} {t : ℝ} (h : ∀ i, q' i = t + q i) : greedy q' = greedy q := by
  unfold greedy
  rw [argmax_shift h]

/-- Whether or not the head is dueling, the values are the scores up to a common summand. -/
theorem q_shift (θ : Vars) (act : ℝ → ℝ) (ext : List ℝ → List ℝ) (c : Cfg) (m : ℕ) (x : List ℝ) : ∃ t, ∀ i, qValues θ act ext c m x i = t + scores θ act ext c m x i := by
  unfold qValues
  by_cases h : c.dueling = true
  · rw [if_pos h]
    exact ⟨stateScore θ act ext c x - (∑ j, scores θ act ext c m x j) / m, fun i => by unfold QLoss.dueling; ring⟩
  · rw [if_neg h]
    exact ⟨0, fun i => by ring⟩

/-- Two networks act alike: the same greedy action and the same probabilities for every observation. -/
def ActAlike {m : ℕ} (f g : List ℝ → Fin m → ℝ) : Prop := ∀ x, greedy (f x) = greedy (g x) ∧ softmax (f x) = softmax (g x) ∧ ∀ u, sampled (f x) u = sampled (g x) u

theorem alike_of_scores {m : ℕ} (θ θ' : Vars) (act : ℝ → ℝ) (ext : List ℝ → List ℝ) (c c' : Cfg) (h : ∀ x, scores θ act ext c m x = scores θ' act ext c' m x) :
    ActAlike (qValues θ act ext c m) (qValues θ' act ext c' m) := by
  intro x
  obtain ⟨t, ht⟩ := q_shift θ act ext c m x
  obtain ⟨t', ht'⟩ := q_shift θ' act ext c' m x
  rw [← h] at ht'
  have hs : softmax (qValues θ act ext c m x) = softmax (qValues θ' act ext c' m x) := by rw [softmax_shift ht, softmax_shift ht']
  refine ⟨by rw [greedy_shift ht, greedy_shift ht'], hs, fun u => ?_⟩
  unfold sampled
  rw [hs]

/-- **C129.** The value of the state does not take part in acting: neither the variables of its layers nor the switch `dueling` change the greedy action or the probabilities. -/
theorem C129_state (m : ℕ) (θ : Vars) (v : ℕ → Dense) (act : ℝ → ℝ) (ext : List ℝ → List ℝ) (c : Cfg) (d : Bool) :
    ActAlike (qValues { θ with value := v } act ext { c with dueling := d } m) (qValues θ act ext c m) :=
  alike_of_scores _ _ _ _ _ _ fun x => rfl

/-- **C129.** With the dueling head the mean value is the value of the state: the layers of the actions do not change it. -/
theorem C129_mean {m : ℕ} (hm : 0 < m) (θ : Vars) (a : ℕ → Dense) (act : ℝ → ℝ) (ext : List ℝ → List ℝ) (c : Cfg) (hd : c.dueling = true) (x : List ℝ) :
    (∑ i, qValues { θ with action := a } act ext c m x i) / m = (∑ i, qValues θ act ext c m x i) / m ∧ (∑ i, qValues θ act ext c m x i) / m = stateScore θ act ext c x := by
  have h : ∀ θ' : Vars, (∑ i, qValues θ' act ext c m x i) / m = stateScore θ' act ext c x := by
    intro θ'
    unfold qValues
    rw [if_pos hd]
    exact (QLoss.C107_dueling hm _ _).1
  exact ⟨by rw [h, h]; rfl, h θ⟩

/-- **C129 (defect).** With a CNN neither `layers` nor the layer normalisation nor the activation function matter for acting: `LnCnnPolicy` acts like `CnnPolicy`. -/
theorem C129_ln_cnn (m : ℕ) (θ : Vars) (act : ℝ → ℝ) (ext : List ℝ → List ℝ) (a a' : Args) (c c' : Cfg) (h : build .lnCnn true a = .ok c) (h' : build .cnn true a' = .ok c') :
    ActAlike (qValues θ act ext c m) (qValues θ act ext c' m) ∧ (a.dueling = some false → a'.dueling = some false → qValues θ act ext c m = qValues θ act ext c' m) := by
  unfold build at h h'
  split at h
  · cases h
  split at h'
  · cases h'
  simp [feedForward] at h h'
  subst h h'
  have hs : ∀ x, scores θ act ext ⟨true, a.layers.getD [64, 64], true, a.dueling.getD true⟩ m x = scores θ act ext ⟨true, a'.layers.getD [64, 64], false, a'.dueling.getD true⟩ m x := fun x => rfl
  refine ⟨alike_of_scores _ _ _ _ _ _ hs, fun h1 h2 => ?_⟩
  funext x
  simp only [qValues, h1, h2, Option.getD_some, Bool.false_eq_true, if_false]
  rfl

/-! ### Layer normalisation -/

/-- **C129.** With layer normalisation the numbers have the mean 0 and a variance of at most 1, before the variables `gamma` and `beta` are applied. -/
theorem C129_layer_norm (d : Dense) (hg : ∀ i, d.gamma i = 1) (hb : ∀ i, d.beta i = 0) (x : List ℝ) :
    (layerNorm d x).length = x.length ∧ mean (layerNorm d x) = 0 ∧ variance (layerNorm d x) ≤ 1 := by
  have e : layerNorm d x = x.map fun a => (a - mean x) / sqrt (variance x + 1e-12) := by
    unfold layerNorm
    simp only [hg, hb, mul_one, add_zero]
    generalize mean x = μ
    generalize sqrt (variance x + 1e-12) = s
    generalize 0 = k
    induction x generalizing k with
    | nil => rfl
    | cons a t ih => simp [List.zipIdx_cons, ih (k + 1)]
  have hsum : ∀ (l : List ℝ) (μ s : ℝ), (l.map fun a => (a - μ) / s).sum = (l.sum - l.length * μ) / s := by
    intro l μ s
    induction l with
    | nil => simp
    | cons a t ih => simp [ih]; ring
  have hsq : ∀ (l : List ℝ) (μ s : ℝ), (l.map fun a => ((a - μ) / s) ^ 2).sum = (l.map fun a => (a - μ) ^ 2).sum / s ^ 2 := by
    intro l μ s
    induction l with
    | nil => simp
    | cons a t ih => simp [ih]; ring
  have hm : mean (layerNorm d x) = 0 := by
    rw [e]
    unfold mean
    rw [hsum, List.length_map]
    by_cases h : x.length = 0
    · simp [h]
    · have : (x.length : ℝ) ≠ 0 := by exact_mod_cast h
      rw [mul_div_cancel₀ _ this]
      simp
  refine ⟨by simp [layerNorm], hm, ?_⟩
  have hv0 : 0 ≤ variance x := by
    unfold variance
    refine div_nonneg (List.sum_nonneg ?_) (by positivity)
    intro a ha
    obtain ⟨b, -, rfl⟩ := List.mem_map.1 ha
    positivity
  have : variance (layerNorm d x) = variance x / (variance x + 1e-12) := by
    rw [variance, hm, e, List.map_map, List.length_map]
    have h2 := hsq x (mean x) (sqrt (variance x + 1e-12))
    simp only [Function.comp_def, sub_zero]
    rw [h2, Real.sq_sqrt (by positivity), div_right_comm]
    rfl
  rw [this, div_le_one (by positivity)]
  norm_num

theorem mean_shift (l : List ℝ) (t : ℝ) (h : l ≠ []) : mean (l.map fun a => a + t) = mean l + t := by
  have hl : (l.length : ℝ) ≠ 0 := by simpa using h
  have : ∀ l : List ℝ, (l.map fun a => a + t).sum = l.sum + l.length * t := by
    intro l
    induction l with
    | nil => simp
    | cons a s ih => simp [ih]; ring
  unfold mean
  rw [this, List.length_map]
  field_simp

theorem layerNorm_shift (d d' : Dense) (hg : d.gamma = d'.gamma) (hb : d.beta = d'.beta) (l : List ℝ) (t : ℝ) : layerNorm d (l.map fun a => a + t) = layerNorm d' l := by
  by_cases h : l = []
  · simp [h, layerNorm]
  have hm := mean_shift l t h
  have hv : variance (l.map fun a => a + t) = variance l := by
    unfold variance
    rw [hm, List.map_map, List.length_map]
    congr 3
    funext a
    simp only [Function.comp]
    ring
  unfold layerNorm
  rw [hm, hv, hg, hb, List.zipIdx_map, List.map_map]
  apply List.map_congr_left
  intro p hp
  simp

/-- **C129.** With layer normalisation a common summand in the biases of a hidden layer has no effect. -/
theorem C129_ln_bias (act : ℝ → ℝ) (d : Dense) (n : ℕ) (x : List ℝ) (t : ℝ) : hidden true act { d with b := fun j => d.b j + t } n x = hidden true act d n x := by
  unfold hidden
  rw [if_pos rfl, if_pos rfl]
  congr 1
  rw [← layerNorm_shift { d with b := fun j => d.b j + t } d rfl rfl (dense d n x) t]
  congr 1
  unfold dense
  rw [List.map_map]
  apply List.map_congr_left
  intro j hj
  simp [affine, add_assoc]

/-- A normalised layer with one unit is constant. -/
theorem hidden_one (act : ℝ → ℝ) (d : Dense) (x : List ℝ) : hidden true act d 1 x = [act (d.beta 0)] := by
  simp [hidden, dense, layerNorm, mean]

/-- **C129 (defect).** With layer normalisation a hidden layer of one unit makes the network blind: the values do not depend on the observation. -/
theorem C129_ln_one (m : ℕ) (θ : Vars) (act : ℝ → ℝ) (ext : List ℝ → List ℝ) (pre post : List ℕ) (dueling : Bool) (x y : List ℝ) :
    qValues θ act ext ⟨false, pre ++ 1 :: post, true, dueling⟩ m x = qValues θ act ext ⟨false, pre ++ 1 :: post, true, dueling⟩ m y := by
  have hs : ∀ (φ : ℕ → Dense) (i : ℕ) (x y : List ℝ), stream φ true act i (pre ++ 1 :: post) x = stream φ true act i (pre ++ 1 :: post) y := by
    intro φ
    induction pre with
    | nil =>
      intro i x y
      simp only [List.nil_append, stream, hidden_one]
    | cons n t ih =>
      intro i x y
      exact ih (i + 1) _ _
  have h1 : scores θ act ext ⟨false, pre ++ 1 :: post, true, dueling⟩ m x = scores θ act ext ⟨false, pre ++ 1 :: post, true, dueling⟩ m y := by
    funext i
    simp only [scores, Bool.false_eq_true, if_false]
    rw [hs θ.action 0 x y]
  have h2 : stateScore θ act ext ⟨false, pre ++ 1 :: post, true, dueling⟩ x = stateScore θ act ext ⟨false, pre ++ 1 :: post, true, dueling⟩ y := by
    simp only [stateScore, Bool.false_eq_true, if_false]
    rw [hs θ.value 0 x y]
  simp only [qValues, h1, h2]

/-! ### Acting -/

theorem choose_card {m : ℕ} (p : Fin m → ℝ) (u : ℝ) : choose p u = (Finset.univ.filter fun i => cdf p i ≤ u).card := by
  unfold choose
  rw [← List.toFinset_card_of_nodup ((List.nodup_finRange m).filter _)]
  congr 1
  ext i
  simp

/-- **C129.** Without any action nothing is chosen: both ways of acting refuse. -/
theorem C129_no_action {m : ℕ} (hm : m = 0) (q : Fin m → ℝ) (qs : List (Fin m → ℝ)) (deterministic : Bool) (u : ℕ → ℝ) : step deterministic u (q :: qs) = .error .valueError := by
  subst hm
  have h : greedy q = .error .valueError := by
    unfold greedy
    cases e : argmax q with
    | none => rfl
    | some x => exact x.elim0
  cases deterministic <;> simp [step, mapRows, sampled, h]

/-- **C129.** `np.random.choice`: action `i` is drawn exactly for the numbers between the sum of the probabilities before it and that sum with its own, so on a part of `[0, 1)` as long as its probability. -/
theorem C129_choice {m : ℕ} (p : Fin m → ℝ) (hp : ∀ i, 0 ≤ p i) (hs : ∑ i, p i = 1) (u : ℝ) (hu : 0 ≤ u) (i : Fin m) :
    (choose p u = i ↔ (∑ j with j < i, p j) ≤ u ∧ u < ∑ j with j ≤ i, p j) ∧ (∑ j with j ≤ i, p j) - (∑ j with j < i, p j) = p i ∧ (u < 1 → choose p u < m) := by
  have hc : ∀ i, cdf p i = ∑ j with j ≤ i, p j := fun i => by simp [cdf, hs]
  have hle : ∀ s t : Finset (Fin m), s ⊆ t → ∑ j ∈ s, p j ≤ ∑ j ∈ t, p j := fun s t h => Finset.sum_le_sum_of_subset_of_nonneg h fun k _ _ => hp k
  have hlt : ∀ j i : Fin m, j < i → cdf p j ≤ ∑ k with k < i, p k := by
    intro j i h
    rw [hc]
    refine hle _ _ fun k hk => ?_
    simp at hk ⊢
    exact hk.trans_lt h
  have hmono : ∀ i j : Fin m, i ≤ j → cdf p i ≤ cdf p j := by
    intro i j h
    rw [hc, hc]
    refine hle _ _ fun k hk => ?_
    simp at hk ⊢
    exact hk.trans h
  refine ⟨⟨fun h => ⟨?_, ?_⟩, fun h => ?_⟩, ?_, fun h1 => ?_⟩
  · rcases Nat.eq_zero_or_pos (i : ℕ) with h0 | h0
    · rw [Finset.sum_eq_zero]
      · exact hu
      · intro k hk
        simp [Fin.lt_def, h0] at hk
    · obtain ⟨k, hk⟩ : ∃ k : Fin m, (k : ℕ) + 1 = i := ⟨⟨i - 1, by have := i.2; omega⟩, by simp; omega⟩
      have e : (∑ j with j < i, p j) = cdf p k := by
        rw [hc]
        congr 1
        ext j
        simp only [Finset.mem_filter, Finset.mem_univ, true_and, Fin.lt_def, Fin.le_def]
        omega
      rw [e]
      by_contra hn
      push Not at hn
      have : (Finset.univ.filter fun j => cdf p j ≤ u) ⊆ Finset.Iio k := by
        intro j hj
        simp at hj ⊢
        by_contra hjk
        push Not at hjk
        exact absurd (hmono _ _ hjk) (by linarith)
      have hcard := Finset.card_le_card this
      rw [← choose_card, h, Fin.card_Iio] at hcard
      omega
  · rw [← hc]
    by_contra hn
    push Not at hn
    have : Finset.Iic i ⊆ (Finset.univ.filter fun j => cdf p j ≤ u) := by
      intro j hj
      simp at hj ⊢
      exact (hmono _ _ hj).trans hn
    have hcard := Finset.card_le_card this
    rw [← choose_card, h, Fin.card_Iic] at hcard
    omega
  · rw [choose_card]
    have : (Finset.univ.filter fun j => cdf p j ≤ u) = Finset.Iio i := by
      ext j
      simp
      constructor
      · intro hj
        by_contra hji
        push Not at hji
        have := hmono _ _ hji
        rw [hc i] at this
        linarith [h.2]
      · intro hj
        exact (hlt j i hj).trans h.1
    rw [this, Fin.card_Iio]
  · have : (Finset.univ.filter fun j => j ≤ i) = insert i (Finset.univ.filter fun j => j < i) := by
      ext j
      simp [le_iff_eq_or_lt]
    rw [this, Finset.sum_insert (by simp)]
    ring
  · rw [choose_card]
    have hm : 0 < m := i.pos
    have hlast : cdf p ⟨m - 1, by omega⟩ = 1 := by
      rw [hc, ← hs]
      congr 1
      ext j
      have := j.2
      simp [Fin.le_def]
      omega
    have : (Finset.univ.filter fun j => cdf p j ≤ u) ⊂ Finset.univ := by
      rw [Finset.ssubset_univ_iff]
      intro hE
      have : (⟨m - 1, by omega⟩ : Fin m) ∈ (Finset.univ.filter fun j => cdf p j ≤ u) := by rw [hE]; simp
      simp [hlast] at this
      linarith
    simpa using Finset.card_lt_card this

/-- What acting has to return for the values `q`: greedily the first of the best actions, otherwise the one whose part of `[0, 1)` contains the draw. -/
def Acts {m : ℕ} (deterministic : Bool) (u : ℝ) (q : Fin m → ℝ) (a : ℕ) : Prop :=
  ∃ i : Fin m, a = i ∧ if deterministic then (∀ j, q j ≤ q i) ∧ ∀ j, j < i → q j < q i
    else (∑ j with j < i, softmax q j) ≤ u ∧ u < ∑ j with j ≤ i, softmax q j

theorem acts_total {m : ℕ} (hm : 0 < m) (det : Bool) (u : ℝ) (hu : 0 ≤ u ∧ u < 1) (q : Fin m → ℝ) : ∃ a, (if det then greedy q else sampled q u) = .ok a ∧ Acts det u q a := by
  cases det with
  | true =>
    obtain ⟨i, hi⟩ := argmax_isSome q hm
    refine ⟨i, by simp [greedy, hi], i, rfl, ?_⟩
    rw [argmax_spec] at hi
    rw [if_pos rfl]
    refine ⟨hi.1, fun j hj => lt_of_le_of_ne (hi.1 j) fun he => ?_⟩
    exact absurd (hi.2 j he) (not_le.2 hj)
  | false =>
    have hp : ∀ i, 0 ≤ softmax q i := fun i => (softmax_pos q i).le
    have hlt := (C129_choice _ hp (softmax_sum q hm) u hu.1 ⟨0, hm⟩).2.2 hu.2
    refine ⟨choose (softmax q) u, by simp [sampled, hm.ne'], ⟨_, hlt⟩, rfl, ?_⟩
    rw [if_neg (by simp)]
    exact (C129_choice _ hp (softmax_sum q hm) u hu.1 ⟨_, hlt⟩).1.1 rfl

theorem step_ok {m : ℕ} (hm : 0 < m) (det : Bool) (u : ℕ → ℝ) (hu : ∀ i, 0 ≤ u i ∧ u i < 1) (qs : List (Fin m → ℝ)) :
    ∃ as, step det u qs = .ok as ∧ as.length = qs.length ∧ ∀ k a q, as[k]? = some a → qs[k]? = some q → Acts det (u k) q a := by
  obtain ⟨as, has⟩ : ∃ as, step det u qs = .ok as := by
    unfold step
    generalize 0 = k
    induction qs generalizing k with
    | nil => exact ⟨[], rfl⟩
    | cons q t ih =>
      obtain ⟨a, ha, -⟩ := acts_total hm det (u k) (hu k) q
      obtain ⟨as, has⟩ := ih (k + 1)
      exact ⟨a :: as, by simp only [mapRows, ha, has]⟩
  have hr := mapRows_ok has
  refine ⟨as, has, hr.1, fun k a q ha hq => ?_⟩
  obtain ⟨q', hq', hf⟩ := hr.2 k a ha
  rw [hq] at hq'
  cases hq'
  obtain ⟨a', ha', hA⟩ := acts_total hm det (u k) (hu k) q
  simp only [Nat.zero_add] at hf
  rw [hf] at ha'
  cases ha'
  exact hA

/-- **C129.** `predict`: one action for every row of a batch, each the first best action for its own observation or drawn from its own probabilities; a single observation gets one action. -/
theorem C129_predict {m : ℕ} (hm : 0 < m) (net : List ℝ → Fin m → ℝ) (sp : ObsSpace) (shape : List ℕ) (obs : List (List ℝ)) (det : Bool) (u : ℕ → ℝ) (hu : ∀ i, 0 ≤ u i ∧ u i < 1) :
    (isVectorized sp shape = .ok true → ∃ as, predict net sp shape obs det u = .ok (.all as) ∧ as.length = obs.length ∧ ∀ k a x, as[k]? = some a → obs[k]? = some x → Acts det (u k) (net x) a) ∧
    (∀ x, obs = [x] → isVectorized sp shape = .ok false → ∃ a, predict net sp shape obs det u = .ok (.one a) ∧ Acts det (u 0) (net x) a) ∧
    (∀ e, isVectorized sp shape = .error e → predict net sp shape obs det u = .error e) := by
  obtain ⟨as, h1, h2, h3⟩ := step_ok hm det u hu (obs.map net)
  refine ⟨fun hv => ⟨as, ?_, by simpa using h2, fun k a x ha hx => h3 k a (net x) ha (by simp [hx])⟩, fun x hx hv => ?_, fun e he => ?_⟩
  · simp only [predict, hv, h1, bind, Except.bind, finish, if_true]
  · subst hx
    match as, h1, h2, h3 with
    | [a], h1, h2, h3 => exact ⟨a, by simp only [predict, hv, h1, bind, Except.bind, finish, Bool.false_eq_true, if_false], h3 0 a (net x) (by simp) (by simp)⟩
  · simp only [predict, he, bind, Except.bind]

/-! ### The probabilities -/

/-- **C129.** The probabilities are positive, sum to one, and are ordered like the values: the greedy action is a most probable one. -/
theorem C129_proba {m : ℕ} (hm : 0 < m) (q : Fin m → ℝ) :
    (∀ i, 0 < softmax q i) ∧ ∑ i, softmax q i = 1 ∧ (∀ i j, softmax q i ≤ softmax q j ↔ q i ≤ q j) ∧ (∀ i j, softmax q i = exp (q i - q j) * softmax q j) := by
  refine ⟨softmax_pos q, softmax_sum q hm, fun i j => ?_, fun i j => ?_⟩
  · have : 0 < ∑ k, exp (q k) := Finset.sum_pos (fun _ _ => exp_pos _) ⟨⟨0, hm⟩, Finset.mem_univ _⟩
    unfold softmax
    rw [div_le_div_iff_of_pos_right this, exp_le_exp]
  · unfold softmax
    rw [Real.exp_sub]
    field_simp

theorem npIndex_ok {m : ℕ} (i : Fin m) : npIndex m (i : ℤ) = some i := by
  unfold npIndex
  rw [dif_pos ⟨by omega, by have := i.2; omega⟩]
  simp

/-- **C129.** `action_probability`: without actions every row is the distribution for its observation; with one action for every row, the probability of that action or its logarithm. -/
theorem C129_action_probability {m : ℕ} (net : List ℝ → Fin m → ℝ) (sp : ObsSpace) (shape : List ℕ) (obs : List (List ℝ)) (acts : List (Fin m)) (hl : obs.length = acts.length) (state : Bool) :
    (isVectorized sp shape = .ok true →
      actionProbability net sp shape obs state none false = .ok (.all (obs.map fun x => List.ofFn (softmax (net x)))) ∧
      actionProbability net sp shape obs state (some (acts.map fun i : Fin m => (i : ℤ))) false = .ok (.all (List.zipWith (fun x i => [softmax (net x) i]) obs acts)) ∧
      actionProbability net sp shape obs state (some (acts.map fun i : Fin m => (i : ℤ))) true = .ok (.all (List.zipWith (fun x i => [log (softmax (net x) i)]) obs acts))) ∧
    (isVectorized sp shape = .ok false → ∀ x i, obs = [x] → acts = [i] →
      actionProbability net sp shape obs false none false = .ok (.one (List.ofFn (softmax (net x)))) ∧
      actionProbability net sp shape obs false (some [(i : ℤ)]) false = .ok (.one [softmax (net x) i]) ∧
      actionProbability net sp shape obs false (some [(i : ℤ)]) true = .ok (.one [log (softmax (net x) i)]) ∧
      ∀ l, actionProbability net sp shape obs true (some [(i : ℤ)]) l = .error .valueError) := by
  have hmap : ∀ (k : ℕ) (obs : List (List ℝ)) (acts : List (Fin m)), mapRows (fun _ p => probOf p.1 p.2) k ((obs.map net).zip (acts.map fun i : Fin m => (i : ℤ))) =
      .ok (List.zipWith (fun x i => softmax (net x) i) obs acts) := by
    intro k obs
    induction obs generalizing k with
    | nil => intro acts; rfl
    | cons x t ih =>
      intro acts
      cases acts with
      | nil => rfl
      | cons i s =>
        have := ih (k + 1) s
        have hp : probOf (net x) (i : ℤ) = .ok (softmax (net x) i) := by simp only [probOf, npIndex_ok]
        simp only [List.map_cons, List.zip_cons_cons, mapRows, this, hp, List.zipWith_cons_cons]
  have hrows : ∀ l, probRows (obs.map net) (some (acts.map fun i : Fin m => (i : ℤ))) l = .ok (List.zipWith (fun x i => [if l then log (softmax (net x) i) else softmax (net x) i]) obs acts) := by
    intro l
    simp only [probRows, List.length_map, hl, if_true, hmap, List.map_zipWith]
  refine ⟨fun hv => ⟨?_, ?_, ?_⟩, fun hv x i hx hi => ?_⟩
  · simp [actionProbability, hv, probRows, bind, Except.bind, finish]
  · simp [actionProbability, hv, hrows, bind, Except.bind, finish]
  · simp [actionProbability, hv, hrows, bind, Except.bind, finish]
  · subst hx hi
    have h' := hrows
    simp only [List.map_cons, List.map_nil, List.zipWith_cons_cons, List.zipWith_nil_left] at h'
    refine ⟨?_, ?_, ?_, fun l => ?_⟩
    · simp [actionProbability, hv, probRows, bind, Except.bind, finish]
    · simp [actionProbability, hv, h', bind, Except.bind, finish]
    · simp [actionProbability, hv, h', bind, Except.bind, finish]
    · simp [actionProbability, hv, h', bind, Except.bind, finish]

/-- **C129 (defect).** `logp=True` without actions is ignored: the answer is probabilities, not logarithms. -/
theorem C129_logp_ignored {m : ℕ} (net : List ℝ → Fin m → ℝ) (sp : ObsSpace) (shape : List ℕ) (obs : List (List ℝ)) (state : Bool) :
    actionProbability net sp shape obs state none true = actionProbability net sp shape obs state none false := rfl

/-- **C129.** Another number of actions than of observations is refused, and so is an action that is not one; an action counted from the end is taken. -/
theorem C129_invalid {m : ℕ} (net : List ℝ → Fin m → ℝ) (sp : ObsSpace) (shape : List ℕ) (obs : List (List ℝ)) (state logp : Bool) (v : Bool) (hv : isVectorized sp shape = .ok v) :
    (∀ acts : List ℤ, obs.length ≠ acts.length → actionProbability net sp shape obs state (some acts) logp = .error .assertion) ∧
    (∀ (x : List ℝ) (a : ℤ), obs = [x] → a < -m ∨ m ≤ a → actionProbability net sp shape obs state (some [a]) logp = .error .indexError) ∧
    (∀ (x : List ℝ) (i : Fin m), obs = [x] → v = true → actionProbability net sp shape obs state (some [(i : ℤ) - m]) false = .ok (.all [[softmax (net x) i]])) := by
  refine ⟨fun acts h => ?_, fun x a hx ha => ?_, fun x i hx hv' => ?_⟩
  · simp [actionProbability, hv, probRows, h, bind, Except.bind]
  · subst hx
    have : npIndex m a = none := by
      unfold npIndex
      rw [dif_neg (by omega), dif_neg (by omega)]
    simp [actionProbability, hv, probRows, mapRows, probOf, this, bind, Except.bind]
  · subst hx hv'
    have : npIndex m ((i : ℤ) - m) = some i := by
      unfold npIndex
      have := i.2
      rw [dif_neg (by omega), dif_pos (by omega)]
      simp
    simp [actionProbability, hv, probRows, mapRows, probOf, this, bind, Except.bind, finish]

/-! ### Concrete cases -/

/-- Variables that are all `a`. -/
def const (a : ℝ) : Dense := { w := fun _ _ => a, b := fun _ => 0, gamma := fun _ => 1, beta := fun _ => 0 }

/-- `LnMlpPolicy(dueling=False)` makes a different network from the one asked for: with a state value of its own. -/
example : ∃ (θ : Vars) (x : List ℝ), qValues θ id id ⟨false, [], true, true⟩ 1 x 0 ≠ qValues θ id id ⟨false, [], true, false⟩ 1 x 0 := by
  refine ⟨⟨fun _ => const 1, fun _ => const 3⟩, [1], ?_⟩
  simp [qValues, QLoss.dueling, stateScore, scores, stream, affine, const]

example : ∃ c, build .lnMlp true { dueling := some false, layers := some [] } = .ok c ∧ c = ⟨false, [], true, true⟩ := ⟨_, rfl, rfl⟩

/-- A network of four actions that sees its observation. -/
example : ∃ (θ : Vars) (x y : List ℝ), qValues θ id id ⟨false, [1], false, false⟩ 4 x ≠ qValues θ id id ⟨false, [1], false, false⟩ 4 y := by
  refine ⟨⟨fun _ => const 1, fun _ => const 3⟩, [1], [2], fun h => ?_⟩
  have := congrFun h 0
  simp [qValues, scores, stream, hidden, dense, affine, const, List.range_succ] at this

/-- Equal values: half of the draws choose the first of two actions. -/
example : choose (softmax fun _ : Fin 2 => (0 : ℝ)) 0.3 = 0 ∧ choose (softmax fun _ : Fin 2 => (0 : ℝ)) 0.5 = 1 := by
  have hp : ∀ i, softmax (fun _ : Fin 2 => (0 : ℝ)) i = 1 / 2 := fun i => by simp [softmax]
  have h := fun u hu i => (C129_choice (softmax fun _ : Fin 2 => (0 : ℝ)) (fun i => (softmax_pos _ i).le) (softmax_sum _ (by norm_num)) u hu i).1
  constructor
  · refine (h 0.3 (by norm_num) 0).2 ⟨?_, ?_⟩ <;> simp [hp, Finset.filter_eq'] <;> norm_num [Finset.sum_filter, Fin.sum_univ_two]
  · refine (h 0.5 (by norm_num) 1).2 ⟨?_, ?_⟩ <;> simp only [hp, Finset.sum_filter, Fin.sum_univ_two] <;> norm_num

/-- The shapes of a single observation and of a batch of two. -/
example : isVectorized (.box [3]) [3] = .ok false ∧ isVectorized (.box [3]) [2, 3] = .ok true := by decide

end Neorl.DQNNet
