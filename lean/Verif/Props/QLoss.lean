import Verif.QLoss
import Mathlib.Analysis.Calculus.Deriv.Mul
import Mathlib.Analysis.Calculus.Deriv.Pow
import Mathlib.Analysis.Calculus.Deriv.Abs
import Mathlib.Data.Fin.VecNotation
import Mathlib.Tactic.Linarith
import Mathlib.Tactic.FieldSimp
import Mathlib.Tactic.Positivity

/-!
# C107: actions, targets and loss of DQN
-/

set_option linter.unusedSectionVars false
set_option linter.unusedVariables false

namespace Neorl.QLoss

open Real

variable {m n : ℕ}

theorem argmax_spec (hm : 0 < m) (q : Fin m → ℝ) : ∃ g, argmax q = some g ∧ (∀ i, q i ≤ q g) ∧ ∀ i, i < g → q i < q g := by
  unfold argmax
  cases h : (List.finRange m).argmax q with
  | none =>
    rw [List.argmax_eq_none] at h
    exact absurd (List.mem_finRange (⟨0, hm⟩ : Fin m)) (by rw [h]; exact List.not_mem_nil)
  | some g =>
    refine ⟨g, rfl, fun i => List.le_of_mem_argmax (List.mem_finRange i) h, fun i hi => ?_⟩
    by_contra hc
    have hidx := List.index_of_argmax h (List.mem_finRange i) (not_lt.1 hc)
    rw [List.idxOf_finRange, List.idxOf_finRange] at hidx
    exact absurd hi (not_lt.2 hidx)

/-- **C107.** Without exploration the action is the first of greatest value, whatever is drawn. -/
theorem C107_greedy (hm : 0 < m) (eps : ℝ) (q : Fin m → ℝ) (u : ℝ) (k : Fin m) :
    ∃ g, act false eps q u k = some g ∧ (∀ i, q i ≤ q g) ∧ ∀ i, i < g → q i < q g := by
  obtain ⟨g, h1, h2⟩ := argmax_spec hm q
  exact ⟨g, by simp [act, h1], h2⟩

/-- **C107.** Epsilon-greedy: with probability `eps` the action is uniform, otherwise greedy; so the greedy action has probability `1 - eps + eps / m`, every other `eps / m`. -/
theorem C107_act (hm : 0 < m) {eps : ℝ} (h0 : 0 ≤ eps) (h1 : eps ≤ 1) (q : Fin m → ℝ) {g : Fin m} (hg : argmax q = some g) (a : Fin m) :
    actProb true eps q a = eps / m + if a = g then 1 - eps else 0 := by
  have hm' : (0 : ℝ) < m := by exact_mod_cast hm
  have key : ∀ k, (MeasureTheory.volume {u : ℝ | u ∈ Set.Ico 0 1 ∧ act true eps q u k = some a}).toReal = (if k = a then eps else 0) + if a = g then 1 - eps else 0 := by
    intro k
    have hset : {u : ℝ | u ∈ Set.Ico 0 1 ∧ act true eps q u k = some a} = (if k = a then Set.Ico 0 eps else ∅) ∪ if a = g then Set.Ico eps 1 else ∅ := by
      ext u
      simp only [Set.mem_ofPred_eq, act, if_true, hg, Set.mem_union]
      by_cases hu : u < eps
      · rw [if_pos hu]
        constructor
        · rintro ⟨hu1, hk⟩
          left
          rw [if_pos (Option.some.inj hk)]
          exact ⟨hu1.1, hu⟩
        · rintro (h | h)
          · split_ifs at h with hk
            · exact ⟨⟨h.1, by linarith⟩, by rw [hk]⟩
            · exact absurd h (Set.notMem_empty _)
          · split_ifs at h
            · exact absurd h.1 (not_le.2 hu)
            · exact absurd h (Set.notMem_empty _)
      · rw [if_neg hu]
        constructor
        · rintro ⟨hu1, hk⟩
          right
          rw [if_pos (Option.some.inj hk).symm]
          exact ⟨not_lt.1 hu, hu1.2⟩
        · rintro (h | h)
          · split_ifs at h
            · exact absurd h.2 hu
            · exact absurd h (Set.notMem_empty _)
          · split_ifs at h with hk
            · exact ⟨⟨by linarith [h.1], h.2⟩, by rw [hk]⟩
            · exact absurd h (Set.notMem_empty _)
    have hdisj : Disjoint (if k = a then Set.Ico (0 : ℝ) eps else ∅) (if a = g then Set.Ico eps 1 else ∅) := by
      split_ifs
      · exact Set.disjoint_left.2 fun x hx hy => absurd hx.2 (not_lt.2 hy.1)
      · exact Set.disjoint_empty _
      · exact Set.empty_disjoint _
      · exact Set.empty_disjoint _
    rw [hset, MeasureTheory.measure_union hdisj (by split_ifs <;> measurability)]
    split_ifs <;> simp [Real.volume_Ico, ENNReal.toReal_add, h0, h1]
  unfold actProb
  rw [Finset.sum_congr rfl fun k _ => key k, Finset.sum_add_distrib, Finset.sum_ite_eq' Finset.univ a]
  simp only [Finset.mem_univ, if_true, Finset.sum_const, Finset.card_univ, Fintype.card_fin, nsmul_eq_mul]
  field_simp

/-- **C107.** A negative update leaves epsilon and threshold alone, any other replaces them. -/
theorem C107_update (eps upd : ℝ) : (upd < 0 → updateEps eps upd = eps ∧ updateThr eps upd = eps) ∧ (0 ≤ upd → updateEps eps upd = upd ∧ updateThr eps upd = upd) := by
  refine ⟨fun h => ?_, fun h => ?_⟩
  · simp [updateEps, updateThr, not_le.2 h]
  · simp [updateEps, updateThr, h]

/-- **C107.** The threshold of the parameter noise is the Kullback-Leibler divergence between the greedy policy and the epsilon-greedy one, and is not negative, so it is taken over (C107_update). -/
theorem C107_threshold (hm : 0 < m) {eps : ℝ} (h0 : 0 ≤ eps) (h1 : eps ≤ 1) (q : Fin m → ℝ) :
    threshold eps m = ∑ a, actProb false eps q a * (log (actProb false eps q a) - log (actProb true eps q a)) ∧ 0 ≤ threshold eps m := by
  obtain ⟨g, hg, -⟩ := argmax_spec hm q
  have hm' : (0 : ℝ) < m := by exact_mod_cast hm
  have hm1 : (1 : ℝ) ≤ m := by exact_mod_cast hm
  have hgr : ∀ a, actProb false eps q a = if a = g then 1 else 0 := by
    intro a
    unfold actProb
    have : ∀ k, (MeasureTheory.volume {u : ℝ | u ∈ Set.Ico 0 1 ∧ act false eps q u k = some a}).toReal = if a = g then 1 else 0 := by
      intro k
      simp only [act, Bool.false_eq_true, if_false, hg, Option.some.injEq]
      by_cases h : g = a
      · simp only [h, and_true, Set.ofPred_mem_eq, Real.volume_Ico, if_true]
        simp
      · simp only [h, and_false, Set.ofPred_false, MeasureTheory.measure_empty, if_neg (Ne.symm h)]
        simp
    rw [Finset.sum_congr rfl fun k _ => this k]
    simp only [Finset.sum_const, Finset.card_univ, Fintype.card_fin, nsmul_eq_mul]
    field_simp
  constructor
  · rw [Finset.sum_eq_single g]
    · rw [hgr, if_pos rfl, C107_act hm h0 h1 q hg g, if_pos rfl, log_one]
      unfold threshold
      rw [show eps / (m : ℝ) + (1 - eps) = 1 - eps + eps / m by ring]
      ring
    · intro b _ hb
      rw [hgr, if_neg hb, zero_mul]
    · intro h; exact absurd (Finset.mem_univ g) h
  · unfold threshold
    have h2 : eps / (m : ℝ) ≤ eps := div_le_self h0 hm1
    have h3 : 0 ≤ eps / (m : ℝ) := by positivity
    have : log (1 - eps + eps / m) ≤ 0 := log_nonpos (by linarith) (by linarith)
    linarith

/-- **C107.** The noise scale stays positive, grows by one percent while the measured divergence is below the threshold and shrinks otherwise. -/
theorem C107_scale {scale : ℝ} (hs : 0 < scale) (kl thr : ℝ) : 0 < updateScale scale kl thr ∧ (kl < thr ↔ scale < updateScale scale kl thr) ∧ (thr ≤ kl ↔ updateScale scale kl thr < scale) := by
  unfold updateScale
  split_ifs with h
  · refine ⟨by positivity, ⟨fun _ => by norm_num; linarith, fun _ => h⟩, ⟨fun h' => absurd h (not_lt.2 h'), fun h' => ?_⟩⟩
    norm_num at h'
    linarith
  · have h1 : scale / 1.01 < scale := by rw [div_lt_iff₀ (by norm_num)]; norm_num; linarith
    exact ⟨by positivity, ⟨fun h' => absurd h' h, fun h' => by linarith⟩, ⟨fun _ => h1, fun _ => not_lt.1 h⟩⟩

/-! ### Targets -/

theorem sum_oneHot (q : Fin m → ℝ) (g : Fin m) : ∑ i, q i * oneHot (some g) i = q g := by
  unfold oneHot
  rw [Finset.sum_eq_single g]
  · simp
  · intro b _ hb
    rw [if_neg (fun h => hb (Option.some.inj h).symm), mul_zero]
  · intro h; exact absurd (Finset.mem_univ g) h

/-- **C107.** The error is the value of the taken action minus the target. -/
theorem C107_error (q : Fin m → ℝ) (a : Fin m) (t : ℝ) : tdError q a t = q a - t := by
  unfold tdError
  rw [sum_oneHot]

theorem sup_spec (hm : 0 < m) (q : Fin m → ℝ) : (∃ i, ⨆ i, q i = q i) ∧ ∀ i, q i ≤ ⨆ i, q i := by
  have : Nonempty (Fin m) := ⟨⟨0, hm⟩⟩
  obtain ⟨i, hi⟩ := exists_eq_ciSup_of_finite (f := q)
  exact ⟨⟨i, hi.symm⟩, fun i => le_ciSup (Set.finite_range q).bddAbove i⟩

/-- **C107.** The target: the reward at the end of an episode; otherwise reward plus discounted value, by the target network, of the best next action - the best one by the target network, or (double Q)
the first best by the online network. -/
theorem C107_target (hm : 0 < m) (gamma rew : ℝ) (qT qO : Fin m → ℝ) :
    (∀ b, target b gamma rew 1 qT qO = rew) ∧
    (∃ i, (∀ j, qT j ≤ qT i) ∧ target false gamma rew 0 qT qO = rew + gamma * qT i) ∧
    (∃ i, (∀ j, qO j ≤ qO i) ∧ (∀ j, j < i → qO j < qO i) ∧ target true gamma rew 0 qT qO = rew + gamma * qT i) := by
  refine ⟨fun b => by unfold target; ring, ?_, ?_⟩
  · obtain ⟨⟨i, hi⟩, h2⟩ := sup_spec hm qT
    refine ⟨i, fun j => hi ▸ h2 j, ?_⟩
    unfold target qBest
    simp [hi]
  · obtain ⟨g, h1, h2, h3⟩ := argmax_spec hm qO
    refine ⟨g, h2, h3, ?_⟩
    unfold target qBest
    simp [h1, sum_oneHot]

/-- **C107.** The double target is never above the plain one, and equal to it when both networks agree. -/
theorem C107_double (hm : 0 < m) {gamma done : ℝ} (hg : 0 ≤ gamma) (hd : done ≤ 1) (rew : ℝ) (qT qO : Fin m → ℝ) :
    target true gamma rew done qT qO ≤ target false gamma rew done qT qO ∧ target true gamma rew done qT qT = target false gamma rew done qT qT := by
  obtain ⟨⟨i, hi⟩, h2⟩ := sup_spec hm qT
  have hqb : ∀ q', ∃ g, qBest true qT q' = qT g ∧ ∀ j, q' j ≤ q' g := by
    intro q'
    obtain ⟨g, h1, h3, -⟩ := argmax_spec hm q'
    exact ⟨g, by unfold qBest; simp [h1, sum_oneHot], h3⟩
  constructor
  · obtain ⟨g, e, -⟩ := hqb qO
    unfold target
    rw [e]
    have : qBest false qT qO = ⨆ i, qT i := by unfold qBest; simp
    rw [this]
    have := mul_le_mul_of_nonneg_left (mul_le_mul_of_nonneg_left (h2 g) (by linarith : 0 ≤ 1 - done)) hg
    linarith
  · obtain ⟨g, e, hm'⟩ := hqb qT
    unfold target
    rw [e]
    have : qBest false qT qT = ⨆ i, qT i := by unfold qBest; simp
    rw [this, hi, le_antisymm (hi ▸ h2 g) (hm' i)]

/-- **C107.** The target is a contraction in the target network: changing its values by at most `d` changes the target by at most `gamma * d`. -/
theorem C107_contraction (hm : 0 < m) {gamma done d : ℝ} (hg : 0 ≤ gamma) (hd0 : 0 ≤ done) (hd1 : done ≤ 1) (b : Bool) (rew : ℝ) {q q' qO : Fin m → ℝ} (h : ∀ i, |q i - q' i| ≤ d) :
    |target b gamma rew done q qO - target b gamma rew done q' qO| ≤ gamma * d := by
  have hdd : 0 ≤ d := le_trans (abs_nonneg _) (h ⟨0, hm⟩)
  have hq : |qBest b q qO - qBest b q' qO| ≤ d := by
    cases b with
    | true =>
      obtain ⟨g, h1, -⟩ := argmax_spec hm qO
      unfold qBest
      simp only [if_true, h1, sum_oneHot]
      exact h g
    | false =>
      obtain ⟨⟨i, hi⟩, h2⟩ := sup_spec hm q
      obtain ⟨⟨j, hj⟩, h3⟩ := sup_spec hm q'
      unfold qBest
      simp only [Bool.false_eq_true, if_false]
      have a1 := abs_le.1 (h i)
      have a2 := abs_le.1 (h j)
      have a3 := h3 i
      have a4 := h2 j
      rw [abs_le]
      constructor <;> linarith
  have e : target b gamma rew done q qO - target b gamma rew done q' qO = gamma * (1 - done) * (qBest b q qO - qBest b q' qO) := by unfold target; ring
  rw [e, abs_mul, abs_of_nonneg (mul_nonneg hg (by linarith))]
  calc gamma * (1 - done) * |qBest b q qO - qBest b q' qO| ≤ gamma * 1 * d := by
        refine mul_le_mul (mul_le_mul_of_nonneg_left (by linarith) hg) hq (abs_nonneg _) (by linarith)
    _ = gamma * d := by ring

/-! ### Huber loss -/

/-- **C107.** The Huber loss: half the square inside, linear outside, the gradient is the error clipped to `[-delta, delta]`, everywhere. -/
theorem C107_huber {delta : ℝ} (hd : 0 < delta) (x : ℝ) :
    HasDerivAt (huber delta) (max (-delta) (min delta x)) x ∧ (|x| ≤ delta → huber delta x = x ^ 2 / 2) ∧ (delta ≤ |x| → huber delta x = delta * |x| - delta ^ 2 / 2) ∧
    0 ≤ huber delta x ∧ (huber delta x = 0 ↔ x = 0) ∧ huber delta (-x) = huber delta x := by
  have hin : ∀ y, |y| ≤ delta → huber delta y = y ^ 2 / 2 := by
    intro y hy
    unfold huber
    split_ifs with h
    · ring
    · have : |y| = delta := le_antisymm hy (not_lt.1 h)
      rw [← sq_abs y, this]
      ring
  have hout : ∀ y, delta ≤ |y| → huber delta y = delta * |y| - delta ^ 2 / 2 := by
    intro y hy
    unfold huber
    rw [if_neg (not_lt.2 hy)]
    ring
  have hsq : ∀ y : ℝ, HasDerivAt (fun y : ℝ => y ^ 2 / 2) y y := fun y => by
    have := (hasDerivAt_pow 2 y).div_const 2
    simpa using this
  refine ⟨?_, hin x, hout x, ?_, ?_, ?_⟩
  · rcases lt_trichotomy |x| delta with h | h | h
    · have hb := abs_lt.1 h
      rw [min_eq_right hb.2.le, max_eq_right hb.1.le]
      refine (hsq x).congr_of_eventuallyEq ?_
      filter_upwards [(isOpen_lt continuous_abs continuous_const).mem_nhds h] with y hy
      exact hin y (le_of_lt hy)
    · -- at the border: both one-sided derivatives agree
      have hx : x = delta ∨ x = -delta := (abs_eq hd.le).1 h
      have hd1 : max (-delta) (min delta x) = x := by
        rcases hx with rfl | rfl
        · rw [min_self, max_eq_right (by linarith)]
        · rw [min_eq_right (by linarith), max_self]
      rw [hd1]
      rcases hx with rfl | rfl
      · have hl : HasDerivWithinAt (huber x) x (Set.Iic x) x := by
          refine (hsq x).hasDerivWithinAt.congr_of_eventuallyEq_of_mem ?_ Set.self_mem_Iic
          have : Set.Ioi (-x) ∈ nhds x := isOpen_Ioi.mem_nhds (by show -x < x; linarith)
          filter_upwards [mem_nhdsWithin_of_mem_nhds this, self_mem_nhdsWithin] with y h1 h2
          exact hin y (abs_le.2 ⟨le_of_lt h1, h2⟩)
        have hr : HasDerivWithinAt (huber x) x (Set.Ici x) x := by
          have hlin : HasDerivAt (fun y => x * y - x ^ 2 / 2) x x := by
            have := ((hasDerivAt_id x).const_mul x).sub_const (x ^ 2 / 2)
            simpa using this
          refine hlin.hasDerivWithinAt.congr_of_eventuallyEq_of_mem ?_ Set.self_mem_Ici
          filter_upwards [self_mem_nhdsWithin] with y h2
          have h2 : x ≤ y := h2
          rw [hout y (by rw [abs_of_nonneg (by linarith)]; exact h2), abs_of_nonneg (by linarith)]
        have := hl.union hr
        rwa [Set.Iic_union_Ici, hasDerivWithinAt_univ] at this
      · have hl : HasDerivWithinAt (huber delta) (-delta) (Set.Iic (-delta)) (-delta) := by
          have hlin : HasDerivAt (fun y => (-delta) * y - delta ^ 2 / 2) (-delta) (-delta) := by
            have := ((hasDerivAt_id (-delta)).const_mul (-delta)).sub_const (delta ^ 2 / 2)
            simpa using this
          refine hlin.hasDerivWithinAt.congr_of_eventuallyEq_of_mem ?_ Set.self_mem_Iic
          filter_upwards [self_mem_nhdsWithin] with y h2
          have h2 : y ≤ -delta := h2
          rw [hout y (by rw [abs_of_nonpos (by linarith)]; linarith), abs_of_nonpos (by linarith)]
          ring
        have hr : HasDerivWithinAt (huber delta) (-delta) (Set.Ici (-delta)) (-delta) := by
          refine (hsq (-delta)).hasDerivWithinAt.congr_of_eventuallyEq_of_mem ?_ Set.self_mem_Ici
          have : Set.Iio delta ∈ nhds (-delta) := isOpen_Iio.mem_nhds (by show -delta < delta; linarith)
          filter_upwards [mem_nhdsWithin_of_mem_nhds this, self_mem_nhdsWithin] with y h1 h2
          exact hin y (abs_le.2 ⟨h2, le_of_lt h1⟩)
        have := hl.union hr
        rwa [Set.Iic_union_Ici, hasDerivWithinAt_univ] at this
    · rcases lt_abs.1 h with h' | h'
      · rw [min_eq_left h'.le, max_eq_right (by linarith)]
        have hlin : HasDerivAt (fun y => delta * y - delta ^ 2 / 2) delta x := by
          have := ((hasDerivAt_id x).const_mul delta).sub_const (delta ^ 2 / 2)
          simpa using this
        refine hlin.congr_of_eventuallyEq ?_
        filter_upwards [isOpen_Ioi.mem_nhds (h' : x ∈ Set.Ioi delta)] with y hy
        have hy : delta < y := hy
        rw [hout y (by rw [abs_of_pos (by linarith)]; exact hy.le), abs_of_pos (by linarith)]
      · rw [min_eq_right (by linarith), max_eq_left (by linarith)]
        have hlin : HasDerivAt (fun y => (-delta) * y - delta ^ 2 / 2) (-delta) x := by
          have := ((hasDerivAt_id x).const_mul (-delta)).sub_const (delta ^ 2 / 2)
          simpa using this
        refine hlin.congr_of_eventuallyEq ?_
        filter_upwards [isOpen_Iio.mem_nhds (by show x < -delta; linarith : x ∈ Set.Iio (-delta))] with y hy
        have hy : y < -delta := hy
        rw [hout y (by rw [abs_of_neg (by linarith)]; linarith), abs_of_neg (by linarith)]
        ring
  · rcases le_total |x| delta with h | h
    · rw [hin x h]; positivity
    · rw [hout x h]; nlinarith
  · rcases le_total |x| delta with h | h
    · rw [hin x h]
      constructor
      · intro h0
        have : x ^ 2 = 0 := by linarith
        exact pow_eq_zero_iff (by norm_num) |>.1 this
      · rintro rfl; norm_num
    · rw [hout x h]
      constructor
      · intro h0; nlinarith
      · rintro rfl
        rw [abs_zero] at h
        linarith
  · unfold huber
    rw [abs_neg, neg_sq]

/-- **C107.** With positive importance weights the loss is zero exactly when every sampled transition satisfies the Bellman equation. -/
theorem C107_loss (hn : 0 < n) {w td : Fin n → ℝ} (hw : ∀ i, 0 < w i) : 0 ≤ weightedError w td ∧ (weightedError w td = 0 ↔ ∀ i, td i = 0) := by
  have hn' : (0 : ℝ) < n := by exact_mod_cast hn
  have hnn : ∀ i ∈ Finset.univ, 0 ≤ w i * huber 1 (td i) := fun i _ => mul_nonneg (hw i).le (C107_huber one_pos (td i)).2.2.2.1
  unfold weightedError
  refine ⟨div_nonneg (Finset.sum_nonneg hnn) hn'.le, ?_⟩
  rw [div_eq_zero_iff, or_iff_left hn'.ne', Finset.sum_eq_zero_iff_of_nonneg hnn]
  refine ⟨fun h i => ?_, fun h i _ => ?_⟩
  · rcases mul_eq_zero.1 (h i (Finset.mem_univ i)) with h1 | h1
    · exact absurd h1 (hw i).ne'
    · exact (C107_huber one_pos (td i)).2.2.2.2.1.1 h1
  · rw [(C107_huber one_pos (td i)).2.2.2.2.1.2 (h i), mul_zero]

/-- **C107.** The gradient of the loss in the error of sample `i` is its weight times the clipped error, divided by the batch size: no sample pulls harder than `w i / n`. -/
theorem C107_pull (w td : Fin n → ℝ) (i : Fin n) :
    HasDerivAt (fun t => weightedError w (Function.update td i t)) (w i * max (-1) (min 1 (td i)) / n) (td i) := by
  have h := ((C107_huber one_pos (td i)).1.const_mul (w i)).add_const (∑ j ∈ Finset.univ.erase i, w j * huber 1 (td j))
  have h2 := h.div_const (n : ℝ)
  refine h2.congr_of_eventuallyEq (Filter.Eventually.of_forall fun t => ?_)
  unfold weightedError
  beta_reduce
  rw [← Finset.add_sum_erase _ _ (Finset.mem_univ i)]
  simp only [Function.update_self]
  congr 2
  refine Finset.sum_congr rfl fun j hj => ?_
  rw [Function.update_of_ne (Finset.ne_of_mem_erase hj)]

/-- **C107.** The dueling head: the values average to the state value, are ranked like the advantages, and do not change when all advantages do by the same amount. -/
theorem C107_dueling (hm : 0 < m) (v : ℝ) (adv : Fin m → ℝ) :
    (∑ i, dueling v adv i) / m = v ∧ (∀ i j, dueling v adv i - dueling v adv j = adv i - adv j) ∧ argmax (dueling v adv) = argmax adv ∧
    ∀ t, dueling v (fun i => adv i + t) = dueling v adv := by
  have hm' : (m : ℝ) ≠ 0 := by exact_mod_cast hm.ne'
  have hdiff : ∀ i j, dueling v adv i - dueling v adv j = adv i - adv j := fun i j => by unfold dueling; ring
  refine ⟨?_, hdiff, ?_, fun t => ?_⟩
  · unfold dueling
    rw [Finset.sum_add_distrib, Finset.sum_sub_distrib]
    simp only [Finset.sum_const, Finset.card_univ, Fintype.card_fin, nsmul_eq_mul]
    field_simp
    ring
  · obtain ⟨g, h1, h2, h3⟩ := argmax_spec hm (dueling v adv)
    obtain ⟨g', h1', h2', h3'⟩ := argmax_spec hm adv
    rw [h1, h1']
    congr 1
    rcases lt_trichotomy g g' with h | h | h
    · have := h3' g h
      have := h2 g'
      linarith [hdiff g g']
    · exact h
    · have := h3 g' h
      have := h2' g
      linarith [hdiff g' g]
  · funext i
    unfold dueling
    rw [Finset.sum_add_distrib]
    simp only [Finset.sum_const, Finset.card_univ, Fintype.card_fin, nsmul_eq_mul]
    field_simp
    ring

/-! ### Concrete cases -/

/-- The networks disagree: the double target is strictly lower. -/
example : target true 1 0 0 ![1, 5] ![2, 0] = 1 ∧ target false 1 0 0 ![1, 5] ![2, 0] = 5 := by
  obtain ⟨-, ⟨i, hi, e1⟩, ⟨j, hj, -, e2⟩⟩ := C107_target (m := 2) (by norm_num) 1 0 ![1, 5] ![2, 0]
  rw [e1, e2]
  constructor
  · have : j = 0 := by
      by_contra h
      have : j = 1 := by omega
      subst this
      have := hj 0
      norm_num at this
    subst this
    norm_num
  · have : i = 1 := by
      by_contra h
      have : i = 0 := by omega
      subst this
      have := hi 1
      norm_num at this
    subst this
    norm_num

example : huber 1 3 = 5 / 2 := by
  rw [(C107_huber one_pos 3).2.2.1 (by norm_num)]
  norm_num

end Neorl.QLoss
