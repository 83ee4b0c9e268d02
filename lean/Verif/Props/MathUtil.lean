import Verif.MathUtil
import Mathlib.Data.Fin.VecNotation
import Mathlib.Data.Rat.Floor
import Mathlib.Algebra.Order.Archimedean.Basic
import Mathlib.Tactic.NormNum

/-!
# C103: action scaling, explained variance, flattening and action noise
-/

set_option linter.unusedSectionVars false
set_option linter.unusedVariables false

namespace Neorl.MathUtil

section
variable {K : Type} [Field K] [LinearOrder K] [IsStrictOrderedRing K] {n : ℕ}

/-- **C103.** `scale_action` and `unscale_action` are inverse to each other, map the box onto `[-1, 1]` and back, the bounds to -1 and 1, and keep the order. -/
theorem C103_scale {low high : Fin n → K} (h : ∀ i, low i < high i) :
    (∀ a, unscaleAction low high (scaleAction low high a) = a) ∧ (∀ s, scaleAction low high (unscaleAction low high s) = s) ∧
    (∀ a, (∀ i, low i ≤ a i ∧ a i ≤ high i) ↔ ∀ i, -1 ≤ scaleAction low high a i ∧ scaleAction low high a i ≤ 1) ∧
    (∀ s, (∀ i, -1 ≤ s i ∧ s i ≤ 1) ↔ ∀ i, low i ≤ unscaleAction low high s i ∧ unscaleAction low high s i ≤ high i) ∧
    scaleAction low high low = (fun _ => -1) ∧ scaleAction low high high = (fun _ => 1) ∧
    ∀ a b i, a i < b i ↔ scaleAction low high a i < scaleAction low high b i := by
  have hd : ∀ i, 0 < high i - low i := fun i => sub_pos.2 (h i)
  have h1 : ∀ a, unscaleAction low high (scaleAction low high a) = a := by
    intro a
    funext i
    have := (hd i).ne'
    unfold unscaleAction scaleAction
    field_simp
    ring
  have h2 : ∀ s, scaleAction low high (unscaleAction low high s) = s := by
    intro s
    funext i
    have := (hd i).ne'
    unfold unscaleAction scaleAction
    field_simp
    ring
  have h3 : ∀ (s : Fin n → K) i, (-1 ≤ s i ∧ s i ≤ 1) ↔ low i ≤ unscaleAction low high s i ∧ unscaleAction low high s i ≤ high i := by
    intro s i
    have hdi := hd i
    unfold unscaleAction
    refine and_congr ⟨fun h => ?_, fun h => ?_⟩ ⟨fun h => ?_, fun h => ?_⟩
    · nlinarith [mul_nonneg (by linarith : (0 : K) ≤ s i + 1) hdi.le]
    · by_contra hn
      nlinarith [mul_pos (by linarith : (0 : K) < -(s i + 1)) hdi]
    · nlinarith [mul_nonneg (by linarith : (0 : K) ≤ 1 - s i) hdi.le]
    · by_contra hn
      nlinarith [mul_pos (by linarith : (0 : K) < s i - 1) hdi]
  refine ⟨h1, h2, fun a => forall_congr' fun i => ?_, fun s => forall_congr' fun i => h3 s i, ?_, ?_, fun a b i => ?_⟩
  · have := h3 (scaleAction low high a) i
    rw [h1 a] at this
    exact this.symm
  · funext i
    unfold scaleAction
    rw [sub_self, zero_div]
    ring
  · funext i
    unfold scaleAction
    rw [div_self (hd i).ne']
    ring
  · unfold scaleAction
    have : a i < b i ↔ (a i - low i) / (high i - low i) < (b i - low i) / (high i - low i) := by
      rw [div_lt_div_iff_of_pos_right (hd i)]
      exact (sub_lt_sub_iff_right _).symm
    rw [this]
    constructor <;> intro h <;> linarith

/-- **C103.** The explained variance is nan exactly if the targets are all the same (or there are none); otherwise it is at most 1, equals 1 exactly if the residuals are all the same, does not
change if a constant is added to the predictions, and is 0 for constant predictions. -/
theorem C103_explained (pred true_ : Fin n → K) :
    (explainedVariance pred true_ = none ↔ ∀ i j, true_ i = true_ j) ∧
    ∀ v, explainedVariance pred true_ = some v → v ≤ 1 ∧ (v = 1 ↔ ∃ c, ∀ i, true_ i = pred i + c) ∧
      (∀ c, explainedVariance (fun i => pred i + c) true_ = some v) ∧ ((∀ i j, pred i = pred j) → v = 0) := by
  rcases Nat.eq_zero_or_pos n with rfl | hn
  · unfold explainedVariance
    simp
  · have : Nonempty (Fin n) := ⟨⟨0, hn⟩⟩
    have hn0 : n ≠ 0 := by omega
    unfold explainedVariance
    simp only [hn0, if_false]
    constructor
    · rw [← var_eq_zero]
      split_ifs with h <;> simp [h]
    · intro v hv
      split_ifs at hv with h0
      simp only [Option.some.injEq] at hv
      subst hv
      have hpos : 0 < var true_ := lt_of_le_of_ne (var_nonneg _) (Ne.symm h0)
      refine ⟨?_, ?_, fun c => ?_, fun hc => ?_⟩
      · linarith [div_nonneg (var_nonneg fun i => true_ i - pred i) hpos.le]
      · rw [sub_eq_self, div_eq_zero_iff, or_iff_left hpos.ne', var_eq_zero]
        constructor
        · intro h
          refine ⟨true_ ⟨0, hn⟩ - pred ⟨0, hn⟩, fun i => ?_⟩
          have := h i ⟨0, hn⟩
          linarith
        · rintro ⟨c, hc⟩ i j
          rw [hc i, hc j]; ring
      · rw [if_neg h0]
        congr 3
        have := var_add_const (fun i => true_ i - pred i) (-c)
        rw [← this]
        congr 1
        funext i
        ring
      · have : var (fun i => true_ i - pred i) = var true_ := by
          have h1 := var_add_const true_ (-pred ⟨0, hn⟩)
          rw [← h1]
          congr 1
          funext i
          rw [hc i ⟨0, hn⟩]; ring
        rw [this, div_self h0, sub_self]

/-- **C103 (defect).** In two dimensions the unexplained variance is the same number for every column: a column that is predicted exactly is reported below 1 whenever the residuals of the
other columns are not all zero. -/
theorem C103_explained_2d {m : ℕ} (pred true_ : Fin n → Fin m → K) :
    (∀ j k, 1 / 10000000000 ≤ var (fun i => true_ i j) → 1 / 10000000000 ≤ var (fun i => true_ i k) →
      (1 - explainedVariance2d pred true_ j) * var (fun i => true_ i j) = (1 - explainedVariance2d pred true_ k) * var (fun i => true_ i k)) ∧
    ∀ j, 1 / 10000000000 ≤ var (fun i => true_ i j) → (∀ i, pred i j = true_ i j) → (∃ i k, pred i k ≠ true_ i k) → explainedVariance2d pred true_ j < 1 := by
  have hpos : ∀ j, 1 / 10000000000 ≤ var (fun i => true_ i j) → 0 < var (fun i => true_ i j) := fun j h => lt_of_lt_of_le (by norm_num) h
  constructor
  · intro j k hj hk
    unfold explainedVariance2d
    simp only [not_lt.2 hj, not_lt.2 hk, if_false, sub_sub_cancel]
    rw [div_mul_cancel₀ _ (hpos j hj).ne', div_mul_cancel₀ _ (hpos k hk).ne']
  · rintro j hj hex ⟨i, k, hne⟩
    unfold explainedVariance2d
    simp only [not_lt.2 hj, if_false]
    have : Nonempty (Fin n × Fin m) := ⟨(i, k)⟩
    have hv : 0 < var fun p : Fin n × Fin m => true_ p.1 p.2 - pred p.1 p.2 := by
      refine lt_of_le_of_ne (var_nonneg _) fun h0 => hne ?_
      have h1 := (var_eq_zero _).1 h0.symm (i, k) (i, j)
      simp only [hex i, sub_self] at h1
      linarith
    linarith [div_pos hv (hpos j hj)]

/-- **C103.** With a single column it is the ordinary explained variance. -/
theorem C103_explained_one (pred true_ : Fin n → Fin 1 → K) (h : 1 / 10000000000 ≤ var fun i => true_ i 0) :
    explainedVariance (fun i => pred i 0) (fun i => true_ i 0) = some (explainedVariance2d pred true_ 0) := by
  have hpos : 0 < var (fun i => true_ i 0) := lt_of_lt_of_le (by norm_num) h
  have hn : n ≠ 0 := by
    rintro rfl
    unfold var mean at hpos
    simp at hpos
  unfold explainedVariance explainedVariance2d
  simp only [hn, if_false, hpos.ne', not_lt.2 h]
  have hm : ∀ f : Fin n → K, mean (fun p : Fin n × Fin 1 => f p.1) = mean f := by
    intro f
    unfold mean
    rw [Fintype.sum_prod_type]
    simp
  have : var (fun p : Fin n × Fin 1 => true_ p.1 p.2 - pred p.1 p.2) = var fun i => true_ i 0 - pred i 0 := by
    have e : (fun p : Fin n × Fin 1 => true_ p.1 p.2 - pred p.1 p.2) = fun p => (fun i => true_ i 0 - pred i 0) p.1 := by
      funext p
      rw [Subsingleton.elim p.2 0]
    unfold var
    rw [e, hm (fun i => true_ i 0 - pred i 0)]
    exact hm (fun i => (true_ i 0 - pred i 0 - mean fun i => true_ i 0 - pred i 0) * (true_ i 0 - pred i 0 - mean fun i => true_ i 0 - pred i 0))
  rw [this]

end

/-! ### Flattening -/

theorem unflattenLoop_flatten {α : Type} (as : List (Arr α)) (hw : ∀ a ∈ as, a.Wf) (hs : ∀ a ∈ as, a.shape ≠ []) (pre : List α) :
    unflattenLoop (pre ++ (as.map Arr.data).flatten) pre.length (as.map Arr.shape) = .ok as := by
  induction as generalizing pre with
  | nil => rfl
  | cons a as ih =>
    have hwa : a.data.length = a.shape.prod := hw a List.mem_cons_self
    have e1 : ((pre ++ ((a :: as).map Arr.data).flatten).drop pre.length).take a.shape.prod = a.data := by
      rw [List.drop_left, List.map_cons, List.flatten_cons, ← hwa, List.take_left]
    have ih' := ih (fun b hb => hw b (List.mem_cons_of_mem _ hb)) (fun b hb => hs b (List.mem_cons_of_mem _ hb)) (pre ++ a.data)
    have e2 : pre ++ a.data ++ (as.map Arr.data).flatten = pre ++ ((a :: as).map Arr.data).flatten := by simp
    rw [e2, List.length_append, hwa] at ih'
    show unflattenLoop _ _ (a.shape :: as.map Arr.shape) = _
    rw [unflattenLoop, if_neg (hs a List.mem_cons_self), e1, if_neg (by simpa using hwa), ih']

/-- **C103.** Flattening and unflattening with the shapes gives the arrays back. -/
theorem C103_flatten {α : Type} {as : List (Arr α)} (h0 : as ≠ []) (hw : ∀ a ∈ as, a.Wf) (hs : ∀ a ∈ as, a.shape ≠ []) :
    ∃ v, flattenArrays as = .ok v ∧ v.length = (as.map fun a => a.shape.prod).sum ∧ unflattenVector v (as.map Arr.shape) = .ok as := by
  refine ⟨_, by unfold flattenArrays; rw [if_neg h0], ?_, by have := unflattenLoop_flatten as hw hs []; simpa [unflattenVector] using this⟩
  rw [List.length_flatten, List.map_map]
  congr 1
  exact List.map_congr_left fun a ha => hw a ha

theorem unflattenLoop_spec {α : Type} (vec : List α) (shs : List (List ℕ)) (hs : ∀ s ∈ shs, s ≠ []) (i : ℕ) (hi : i ≤ vec.length) :
    (i + (shs.map List.prod).sum ≤ vec.length → ∃ as, unflattenLoop vec i shs = .ok as ∧ as.map Arr.shape = shs ∧ (∀ a ∈ as, a.Wf) ∧ (as.map Arr.data).flatten = (vec.drop i).take (shs.map List.prod).sum) ∧
    (vec.length < i + (shs.map List.prod).sum → unflattenLoop vec i shs = .error .valueError) := by
  induction shs generalizing i with
  | nil => exact ⟨fun _ => ⟨[], rfl, rfl, fun a ha => (nomatch ha), by simp⟩, fun h => by simp at h; omega⟩
  | cons s shs ih =>
    simp only [List.map_cons, List.sum_cons]
    have hlen : ((vec.drop i).take s.prod).length = min s.prod (vec.length - i) := by simp
    by_cases hfit : i + s.prod ≤ vec.length
    · have hl : ((vec.drop i).take s.prod).length = s.prod := by rw [hlen]; omega
      obtain ⟨g1, g2⟩ := ih (fun s' h' => hs s' (List.mem_cons_of_mem _ h')) (i + s.prod) hfit
      constructor
      · intro h
        obtain ⟨as, e, h1, h2, h3⟩ := g1 (by omega)
        refine ⟨⟨s, (vec.drop i).take s.prod⟩ :: as, ?_, by simp [h1], ?_, ?_⟩
        · rw [unflattenLoop, if_neg (hs s List.mem_cons_self), if_neg (by simpa using hl), e]
        · intro a ha
          rcases List.mem_cons.1 ha with rfl | ha
          · exact hl
          · exact h2 a ha
        · rw [List.map_cons, List.flatten_cons, h3, ← List.drop_drop, List.take_add]
      · intro h
        rw [unflattenLoop, if_neg (hs s List.mem_cons_self), if_neg (by simpa using hl), g2 (by omega)]
    · constructor
      · intro h; omega
      · intro _
        rw [unflattenLoop, if_neg (hs s List.mem_cons_self), if_pos (by rw [hlen]; omega)]

/-- **C103.** Unflattening cuts the vector into consecutive pieces of the given shapes; superfluous entries are ignored, too few are refused. -/
theorem C103_unflatten {α : Type} (vec : List α) (shs : List (List ℕ)) (hs : ∀ s ∈ shs, s ≠ []) :
    ((shs.map List.prod).sum ≤ vec.length → ∃ as, unflattenVector vec shs = .ok as ∧ as.map Arr.shape = shs ∧ (∀ a ∈ as, a.Wf) ∧ (as.map Arr.data).flatten = vec.take (shs.map List.prod).sum) ∧
    (vec.length < (shs.map List.prod).sum → unflattenVector vec shs = .error .valueError) := by
  have := unflattenLoop_spec vec shs hs 0 (Nat.zero_le _)
  unfold unflattenVector
  simpa using this

/-- **C103 (defect).** A scalar, i.e. an array of shape `()`, can be flattened but not unflattened. -/
theorem C103_scalar {α : Type} (vec : List α) (shs : List (List ℕ)) : unflattenVector vec ([] :: shs) = .error .typeError := rfl

section
variable {K : Type} [Field K] [LinearOrder K] [IsStrictOrderedRing K] {n : ℕ}

/-- **C103.** Parameter noise: every distance above the desired one divides the standard deviation by the coefficient, every other multiplies it; it stays positive. -/
theorem C103_adapt {coef : K} (hc : 0 < coef) (desired stddev : K) (ds : List K) :
    adaptAll desired coef stddev ds * coef ^ (ds.countP fun d => desired < d) = stddev * coef ^ (ds.countP fun d => ¬ desired < d) ∧ (0 < stddev → 0 < adaptAll desired coef stddev ds) := by
  induction ds generalizing stddev with
  | nil => exact ⟨rfl, id⟩
  | cons d ds ih =>
    obtain ⟨i1, i2⟩ := ih (adapt desired coef stddev d)
    have hstep : adaptAll desired coef stddev (d :: ds) = adaptAll desired coef (adapt desired coef stddev d) ds := rfl
    rw [hstep]
    have hne := hc.ne'
    by_cases h : desired < d
    · have e : adapt desired coef stddev d = stddev / coef := by unfold adapt; rw [if_pos h]
      rw [e] at i1 i2 ⊢
      refine ⟨?_, fun hs => i2 (div_pos hs hc)⟩
      rw [List.countP_cons_of_pos (by simpa using h), List.countP_cons_of_neg (by simpa using h), pow_succ, ← mul_assoc, i1]
      field_simp
    · have e : adapt desired coef stddev d = stddev * coef := by unfold adapt; rw [if_neg h]
      rw [e] at i1 i2 ⊢
      refine ⟨?_, fun hs => i2 (mul_pos hs hc)⟩
      rw [List.countP_cons_of_neg (by simpa using h), List.countP_cons_of_pos (by simpa using h), i1, pow_succ]
      ring

/-- **C103.** If the distance grows with the standard deviation and is the desired one at `s`, the standard deviation comes within one factor of `s` after finitely many steps and stays there. -/
theorem C103_adapt_converges [Archimedean K] {desired coef s s0 : K} {dist : K → K} (hc : 1 < coef) (hs : 0 < s) (h0 : 0 < s0) (hm : StrictMono dist) (hd : dist s = desired) :
    ∃ N, ∀ k, N ≤ k → s / coef < adaptLoop desired coef dist s0 k ∧ adaptLoop desired coef dist s0 k ≤ s * coef := by
  have hc0 : 0 < coef := by linarith
  set x := adaptLoop desired coef dist s0 with hx
  have hup : ∀ k, x k ≤ s → x (k + 1) = x k * coef := by
    intro k hk
    show adapt desired coef (x k) (dist (x k)) = _
    unfold adapt
    rw [if_neg]
    rw [← hd]
    exact not_lt.2 (hm.monotone hk)
  have hdown : ∀ k, s < x k → x (k + 1) = x k / coef := by
    intro k hk
    show adapt desired coef (x k) (dist (x k)) = _
    unfold adapt
    rw [if_pos]
    rw [← hd]
    exact hm hk
  have hpos : ∀ k, 0 < x k := by
    intro k
    induction k with
    | zero => exact h0
    | succ k ih =>
      rcases le_or_gt (x k) s with h | h
      · rw [hup k h]; exact mul_pos ih hc0
      · rw [hdown k h]; exact div_pos ih hc0
  have hinv : ∀ k, (s / coef < x k ∧ x k ≤ s * coef) → s / coef < x (k + 1) ∧ x (k + 1) ≤ s * coef := by
    rintro k ⟨h1, h2⟩
    rcases le_or_gt (x k) s with h | h
    · rw [hup k h]
      refine ⟨lt_of_lt_of_le h1 ?_, mul_le_mul_of_nonneg_right h hc0.le⟩
      nlinarith [hpos k]
    · rw [hdown k h]
      refine ⟨(div_lt_div_iff_of_pos_right hc0).2 h, ?_⟩
      rw [div_le_iff₀ hc0]
      nlinarith [mul_pos hs hc0]
  have hent : ∃ N, s / coef < x N ∧ x N ≤ s * coef := by
    by_contra hno
    push Not at hno
    rcases le_or_gt s0 s with h | h
    · have hlow : ∀ k, x k ≤ s / coef ∧ x k = s0 * coef ^ k := by
        intro k
        induction k with
        | zero =>
          refine ⟨?_, by rw [pow_zero, mul_one]; rfl⟩
          by_contra hn
          have := hno 0 (not_le.1 hn)
          have e : x 0 = s0 := rfl
          rw [e] at this
          nlinarith
        | succ k ih =>
          have hle : x k ≤ s := ih.1.trans (div_le_self hs.le hc.le)
          have e := hup k hle
          refine ⟨?_, by rw [e, ih.2, pow_succ, mul_assoc]⟩
          by_contra hn
          have h1 := hno (k + 1) (not_le.1 hn)
          rw [e] at h1
          have h2 : x k * coef ≤ s := by
            have := mul_le_mul_of_nonneg_right ih.1 hc0.le
            rwa [div_mul_cancel₀ _ hc0.ne'] at this
          nlinarith
      obtain ⟨N, hN⟩ := pow_unbounded_of_one_lt (s / coef / s0) hc
      have := (hlow N).1
      rw [(hlow N).2] at this
      rw [div_lt_iff₀ h0] at hN
      linarith [mul_comm s0 (coef ^ N)]
    · have hhigh : ∀ k, s * coef < x k ∧ x k * coef ^ k = s0 := by
        intro k
        induction k with
        | zero =>
          refine ⟨?_, by rw [pow_zero, mul_one]; rfl⟩
          exact hno 0 (lt_of_le_of_lt (div_le_self hs.le hc.le) h)
        | succ k ih =>
          have hlt : s < x k := lt_of_le_of_lt (by nlinarith) ih.1
          have e := hdown k hlt
          have h2 : s < x k / coef := by rw [lt_div_iff₀ hc0]; exact ih.1
          refine ⟨?_, by rw [e, pow_succ]; rw [← ih.2]; field_simp⟩
          exact hno (k + 1) (by rw [e]; exact lt_of_le_of_lt (div_le_self hs.le hc.le) h2)
      obtain ⟨N, hN⟩ := pow_unbounded_of_one_lt (s0 / s) hc
      have h1 := hhigh N
      rw [div_lt_iff₀ hs] at hN
      have h2 : s < x N := lt_of_le_of_lt (by nlinarith) h1.1
      have h3 : s * coef ^ N < x N * coef ^ N := mul_lt_mul_of_pos_right h2 (pow_pos hc0 N)
      linarith [h1.2, mul_comm s (coef ^ N)]
  obtain ⟨N, hN⟩ := hent
  refine ⟨N, fun k hk => ?_⟩
  induction k, hk using Nat.le_induction with
  | base => exact hN
  | succ k _ ih => exact hinv k ih

/-- **C103.** Ornstein-Uhlenbeck noise: call `k` after a reset returns the mean plus the decayed initial offset plus the decayed draws. -/
theorem C103_ou (c : OU K n) {mu : Fin n → K} (hmu : c.mu = .array mu) (g : ℕ → Fin n → K) (k : ℕ) :
    ∃ x, c.noise g k = .ok x ∧ ∀ i, x i - mu i = (1 - c.theta * c.dt) ^ k * ((c.initial.getD 0) i - mu i) +
      ∑ j ∈ Finset.range k, (1 - c.theta * c.dt) ^ (k - 1 - j) * (c.sigma i * c.sqrtDt * g j i) := by
  induction k with
  | zero => exact ⟨c.reset, rfl, fun i => by simp [OU.reset]⟩
  | succ k ih =>
    obtain ⟨x, e, hx⟩ := ih
    refine ⟨fun i => x i + c.theta * (mu i - x i) * c.dt + c.sigma i * c.sqrtDt * g k i, by simp only [OU.noise, e, OU.call, hmu], fun i => ?_⟩
    have h1 : x i + c.theta * (mu i - x i) * c.dt + c.sigma i * c.sqrtDt * g k i - mu i = (1 - c.theta * c.dt) * (x i - mu i) + c.sigma i * c.sqrtDt * g k i := by ring
    rw [h1, hx i, mul_add, ← mul_assoc, ← pow_succ', Finset.mul_sum, Finset.sum_range_succ, Nat.add_sub_cancel, Nat.sub_self, pow_zero, one_mul, add_assoc]
    congr 2
    refine Finset.sum_congr rfl fun j hj => ?_
    have hjk := Finset.mem_range.1 hj
    rw [← mul_assoc, ← pow_succ', show k - 1 - j + 1 = k - j by omega]

/-- **C103 (defect).** With a plain float as mean, as documented, the first call raises AttributeError. -/
theorem C103_ou_float (c : OU K n) {x : K} (h : c.mu = .float x) (prev g : Fin n → K) : c.call prev g = .error .attributeError := by
  unfold OU.call
  rw [h]

end

/-! ### Concrete cases -/

example : scaleAction (![0, -2] : Fin 2 → ℚ) ![10, 2] ![5, 2] = ![0, 1] ∧ unscaleAction (![0, -2] : Fin 2 → ℚ) ![10, 2] ![0, 1] = ![5, 2] := by decide +kernel

example : explainedVariance (![1, 2, 4] : Fin 3 → ℚ) ![1, 2, 3] = some (2 / 3) ∧ explainedVariance (![11, 12, 13] : Fin 3 → ℚ) ![1, 2, 3] = some 1 ∧
    explainedVariance (![1, 2, 3] : Fin 3 → ℚ) ![5, 5, 5] = none := by decide +kernel

/-- Column 0 is predicted exactly, and still gets -1. -/
example : explainedVariance2d (![![1, 5], ![3, 5]] : Fin 2 → Fin 2 → ℚ) ![![1, 7], ![3, 3]] 0 = -1 ∧ explainedVariance (![1, 3] : Fin 2 → ℚ) ![1, 3] = some 1 := by decide +kernel

example : unflattenVector [1, 2, 3, 4, 5, 6] [[2, 2], [2]] = .ok [⟨[2, 2], [1, 2, 3, 4]⟩, ⟨[2], [5, 6]⟩] ∧ unflattenVector [1, 2, 3] [[2, 2]] = .error .valueError ∧
    flattenArrays [⟨[], [7]⟩, ⟨[2], [5, 6]⟩] = .ok [7, 5, 6] ∧ unflattenVector [7, 5, 6] [[], [2]] = .error .typeError := by decide +kernel

example : (List.range 6).map (adaptLoop (1 : ℚ) 2 (fun s => s) 5) = [5, 5 / 2, 5 / 4, 5 / 8, 5 / 4, 5 / 8] := by decide +kernel

example : ∃ N, ∀ k, N ≤ k → (1 : ℚ) / 2 < adaptLoop (1 : ℚ) 2 (fun s => s) 5 k ∧ adaptLoop (1 : ℚ) 2 (fun s => s) 5 k ≤ 1 * 2 :=
  C103_adapt_converges (by norm_num) (by norm_num) (by norm_num) strictMono_id rfl

example : ∃ x, (⟨.array ![1], 1 / 2, ![1], 1, 1, none⟩ : OU ℚ 1).noise (fun _ => ![1]) 3 = .ok x ∧ x 0 = 21 / 8 := by
  obtain ⟨x, h, hx⟩ := C103_ou (⟨.array ![1], 1 / 2, ![1], 1, 1, none⟩ : OU ℚ 1) rfl (fun _ => ![1]) 3
  refine ⟨x, h, ?_⟩
  have := hx 0
  simp [Finset.sum_range_succ] at this
  norm_num at this
  linarith

end Neorl.MathUtil
