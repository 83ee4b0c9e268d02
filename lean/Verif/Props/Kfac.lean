import Mathlib.Data.Fin.VecNotation
import Mathlib.Data.Nat.Count
import Mathlib.Algebra.Order.BigOperators.Group.List
import Mathlib.Algebra.BigOperators.Intervals
import Verif.Kfac

/-!
# C120: the Kronecker-factored optimiser of ACKTR

The update of a layer solves the damped Fisher system, the rescaled update of all layers stays
in the trust region, the statistics are averages of the covariances, and the counters tell at
each step which of the two optimisers moves the parameters.
-/

set_option linter.unusedSectionVars false
set_option linter.unusedVariables false

namespace Neorl.Kfac

open Matrix

/-! ## The spec: the damped Fisher block -/

/-- `Q diag(e) Qᵀ` with the eigenvalues up to `1e-6` set to zero. -/
noncomputable def Factor {m : ℕ} (Q : Matrix (Fin m) (Fin m) ℝ) (e : Fin m → ℝ) :
    Matrix (Fin m) (Fin m) ℝ :=
  Q * diagonal (fun i => if e i ≤ 1 / 1000000 then 0 else e i) * Qᵀ

/-- The damped Fisher block applied to a matrix: `A U G + lam U`, or
`(A + π √lam) U (G + √lam / π)` with `π² = tA / tG`. -/
noncomputable def Fisher {m n : ℕ} (factored : Bool) (lam : ℝ)
    (QA : Matrix (Fin m) (Fin m) ℝ) (eA : Fin m → ℝ)
    (QG : Matrix (Fin n) (Fin n) ℝ) (eG : Fin n → ℝ) (U : Matrix (Fin m) (Fin n) ℝ) :
    Matrix (Fin m) (Fin n) ℝ :=
  match factored with
  | false => Factor QA eA * U * Factor QG eG + lam • U
  | true =>
      (Factor QA eA + (Real.sqrt ((Factor QA eA).trace / m / ((Factor QG eG).trace / n)) *
          Real.sqrt lam) • (1 : Matrix (Fin m) (Fin m) ℝ)) * U *
        (Factor QG eG + (Real.sqrt ((Factor QG eG).trace / n / ((Factor QA eA).trace / m)) *
          Real.sqrt lam) • (1 : Matrix (Fin n) (Fin n) ℝ))

/-- The traces of both factors are positive; only factored damping needs it. -/
def Traces {m n : ℕ} (factored : Bool) (QA : Matrix (Fin m) (Fin m) ℝ) (eA : Fin m → ℝ)
    (QG : Matrix (Fin n) (Fin n) ℝ) (eG : Fin n → ℝ) : Prop :=
  factored = true → 0 < (Factor QA eA).trace ∧ 0 < (Factor QG eG).trace

section layer
variable {m n : ℕ}

theorem factor_eq (Q : Matrix (Fin m) (Fin m) ℝ) (e : Fin m → ℝ) :
    Factor Q e = Q * diagonal (fun i => clipout (e i)) * Qᵀ := by
  unfold Factor
  congr 3
  funext i
  unfold clipout
  split
  · rw [if_neg (by linarith)]
  · rw [if_pos (by linarith)]

theorem factor_trace {Q : Matrix (Fin m) (Fin m) ℝ} (h : Q * Qᵀ = 1) (e : Fin m → ℝ) :
    (Factor Q e).trace / m = tnorm e := by
  rw [factor_eq, Matrix.trace_mul_comm, ← Matrix.mul_assoc, mul_eq_one_comm.1 h, Matrix.one_mul,
    Matrix.trace_diagonal]
  unfold tnorm
  congr 1
  exact Finset.sum_congr rfl fun i _ => (abs_of_nonneg (clipout_nonneg _)).symm

theorem traces_tnorm {f : Bool} {QA : Matrix (Fin m) (Fin m) ℝ} {eA : Fin m → ℝ}
    {QG : Matrix (Fin n) (Fin n) ℝ} {eG : Fin n → ℝ} (hA : QA * QAᵀ = 1) (hG : QG * QGᵀ = 1)
    (ht : Traces f QA eA QG eG) : f = true → 0 < tnorm eA ∧ 0 < tnorm eG := by
  intro hf
  obtain ⟨h1, h2⟩ := ht hf
  have pos : ∀ {k : ℕ} {x : ℝ} {M : Matrix (Fin k) (Fin k) ℝ}, 0 < M.trace → 0 < M.trace / k := by
    intro k x M h
    rcases Nat.eq_zero_or_pos k with hk | hk
    · subst hk; simp [Matrix.trace] at h
    · have : (0 : ℝ) < k := by exact_mod_cast hk
      positivity
  rw [← factor_trace hA, ← factor_trace hG]
  exact ⟨pos (x := 0) h1, pos (x := 0) h2⟩

/-- The damped Fisher block multiplies the coordinates along the eigenvectors by `coeff`. -/
theorem fisher_coord {f : Bool} {lam : ℝ} {QA : Matrix (Fin m) (Fin m) ℝ} {eA : Fin m → ℝ}
    {QG : Matrix (Fin n) (Fin n) ℝ} {eG : Fin n → ℝ} (hA : QA * QAᵀ = 1) (hG : QG * QGᵀ = 1)
    (U : Matrix (Fin m) (Fin n) ℝ) :
    QAᵀ * Fisher f lam QA eA QG eG U * QG =
      Matrix.of fun i j => coeff f lam eA eG i j * (QAᵀ * U * QG) i j := by
  have hA' := mul_eq_one_comm.1 hA
  have hG' := mul_eq_one_comm.1 hG
  cases f with
  | false =>
      simp only [Fisher]
      rw [Matrix.mul_add, Matrix.add_mul, factor_eq, factor_eq, conj_spec hA' hG']
      ext i j
      simp only [Matrix.add_apply, Matrix.of_apply, Matrix.mul_smul, Matrix.smul_mul,
        Matrix.smul_apply, smul_eq_mul, coeff]
      simp only [Bool.false_eq_true, if_false]
      ring
  | true =>
      simp only [Fisher]
      rw [factor_trace hA, factor_trace hG, factor_eq, factor_eq]
      have shift : ∀ {k : ℕ} (Q : Matrix (Fin k) (Fin k) ℝ) (d : Fin k → ℝ) (x : ℝ),
          Q * Qᵀ = 1 → Q * diagonal d * Qᵀ + x • (1 : Matrix (Fin k) (Fin k) ℝ) =
            Q * diagonal (fun i => d i + x) * Qᵀ := by
        intro k Q d x hQ
        have : diagonal (fun i => d i + x) = diagonal d + x • (1 : Matrix (Fin k) (Fin k) ℝ) := by
          ext i j
          by_cases hij : i = j
          · subst hij; simp
          · simp [hij]
        rw [this, Matrix.mul_add, Matrix.add_mul]
        simp [hQ]
      rw [shift _ _ _ hA, shift _ _ _ hG, conj_spec hA' hG']
      ext i j
      simp [coeff]

/-- **C120 (the update solves the Fisher system).**  For orthogonal eigenvectors and positive
damping the update of a layer is the one matrix that the damped Fisher block of the layer maps
to the gradient. -/
theorem C120_solves {f : Bool} {lam : ℝ} (hl : 0 < lam)
    {QA : Matrix (Fin m) (Fin m) ℝ} {eA : Fin m → ℝ}
    {QG : Matrix (Fin n) (Fin n) ℝ} {eG : Fin n → ℝ} (hA : QA * QAᵀ = 1) (hG : QG * QGᵀ = 1)
    (ht : Traces f QA eA QG eG) (V U : Matrix (Fin m) (Fin n) ℝ) :
    Fisher f lam QA eA QG eG U = V ↔ U = precond f lam QA eA QG eG V := by
  have hA' := mul_eq_one_comm.1 hA
  have hG' := mul_eq_one_comm.1 hG
  have hc := coeff_pos hl eA eG f (traces_tnorm hA hG ht)
  constructor
  · intro h
    apply conj_inj hA hG
    rw [precond_coord hA' hG']
    ext i j
    rw [← h, fisher_coord hA hG]
    simp only [Matrix.of_apply]
    rw [mul_div_assoc, mul_comm, div_mul_cancel₀ _ (hc i j).ne']
  · intro h
    apply conj_inj hA hG
    rw [fisher_coord hA hG, h, precond_coord hA' hG']
    ext i j
    simp only [Matrix.of_apply]
    rw [mul_comm, div_mul_cancel₀ _ (hc i j).ne']

theorem fisher_inner {f : Bool} {lam : ℝ} {QA : Matrix (Fin m) (Fin m) ℝ} {eA : Fin m → ℝ}
    {QG : Matrix (Fin n) (Fin n) ℝ} {eG : Fin n → ℝ} (hA : QA * QAᵀ = 1) (hG : QG * QGᵀ = 1)
    (U : Matrix (Fin m) (Fin n) ℝ) :
    inner U (Fisher f lam QA eA QG eG U) =
      ∑ i, ∑ j, coeff f lam eA eG i j * ((QAᵀ * U * QG) i j * (QAᵀ * U * QG) i j) := by
  have e : QA * (QAᵀ * U * QG) * QGᵀ = U := by
    calc QA * (QAᵀ * U * QG) * QGᵀ = (QA * QAᵀ) * U * (QG * QGᵀ) := by
          simp only [Matrix.mul_assoc]
      _ = U := by rw [hA, hG, Matrix.one_mul, Matrix.mul_one]
  conv_lhs => rw [← e]
  rw [inner_conj, e, fisher_coord hA hG]
  unfold inner
  refine Finset.sum_congr rfl fun i _ => Finset.sum_congr rfl fun j _ => ?_
  simp only [Matrix.of_apply]
  ring

theorem fisher_inner_nonneg {f : Bool} {lam : ℝ} (hl : 0 < lam)
    {QA : Matrix (Fin m) (Fin m) ℝ} {eA : Fin m → ℝ}
    {QG : Matrix (Fin n) (Fin n) ℝ} {eG : Fin n → ℝ} (hA : QA * QAᵀ = 1) (hG : QG * QGᵀ = 1)
    (ht : Traces f QA eA QG eG) (U : Matrix (Fin m) (Fin n) ℝ) :
    0 ≤ inner U (Fisher f lam QA eA QG eG U) ∧
      (inner U (Fisher f lam QA eA QG eG U) = 0 → U = 0) := by
  have hc := coeff_pos hl eA eG f (traces_tnorm hA hG ht)
  rw [fisher_inner hA hG]
  have hn : ∀ i, 0 ≤ ∑ j, coeff f lam eA eG i j * ((QAᵀ * U * QG) i j * (QAᵀ * U * QG) i j) :=
    fun i => Finset.sum_nonneg fun j _ => mul_nonneg (hc i j).le (mul_self_nonneg _)
  refine ⟨Finset.sum_nonneg fun i _ => hn i, fun h => ?_⟩
  apply conj_inj hA hG
  ext i j
  have h1 := (Finset.sum_eq_zero_iff_of_nonneg fun i _ => hn i).1 h i (Finset.mem_univ _)
  have h2 := (Finset.sum_eq_zero_iff_of_nonneg fun j _ =>
    mul_nonneg (hc i j).le (mul_self_nonneg _)).1 h1 j (Finset.mem_univ _)
  rcases mul_eq_zero.1 h2 with h3 | h3
  · exact absurd h3 (hc i j).ne'
  · rw [mul_self_eq_zero.1 h3]; simp

/-- **C120 (a descent direction).**  The update of a layer has a positive product with its
gradient, unless the gradient is zero. -/
theorem C120_descent {f : Bool} {lam : ℝ} (hl : 0 < lam)
    {QA : Matrix (Fin m) (Fin m) ℝ} {eA : Fin m → ℝ}
    {QG : Matrix (Fin n) (Fin n) ℝ} {eG : Fin n → ℝ} (hA : QA * QAᵀ = 1) (hG : QG * QGᵀ = 1)
    (ht : Traces f QA eA QG eG) (V : Matrix (Fin m) (Fin n) ℝ) (hV : V ≠ 0) :
    0 < ∑ i, ∑ j, precond f lam QA eA QG eG V i j * V i j := by
  have h := (C120_solves hl hA hG ht V _).2 rfl
  obtain ⟨h1, h2⟩ := fisher_inner_nonneg hl hA hG ht (precond f lam QA eA QG eG V)
  rw [h] at h1 h2
  rcases h1.lt_or_eq with h3 | h3
  · exact h3
  · exfalso
    have := h2 h3.symm
    rw [this] at h
    apply hV
    rw [← h]
    cases f <;> simp [Fisher]

/-- **C120 (what the threshold costs).**  For a positive semidefinite factor the threshold on
its eigenvalues changes its quadratic form by at most a millionth of the squared length, and not
at all if every eigenvalue is zero or above the threshold. -/
theorem C120_threshold {Q A : Matrix (Fin m) (Fin m) ℝ} {e : Fin m → ℝ} (hQ : Q * Qᵀ = 1)
    (hA : Q * diagonal e * Qᵀ = A) (he : ∀ i, 0 ≤ e i) :
    (∀ x : Fin m → ℝ, 0 ≤ x ⬝ᵥ (A - Factor Q e) *ᵥ x ∧
      x ⬝ᵥ (A - Factor Q e) *ᵥ x ≤ 1 / 1000000 * (x ⬝ᵥ x)) ∧
    ((∀ i, e i = 0 ∨ 1 / 1000000 < e i) → Factor Q e = A) := by
  constructor
  · intro x
    have hd : A - Factor Q e = Q * diagonal (fun i => e i - clipout (e i)) * Qᵀ := by
      rw [← hA, factor_eq, ← Matrix.sub_mul, ← Matrix.mul_sub, Matrix.diagonal_sub]
    have hq : ∀ d : Fin m → ℝ, x ⬝ᵥ (Q * diagonal d * Qᵀ) *ᵥ x =
        ∑ i, d i * ((Qᵀ *ᵥ x) i * (Qᵀ *ᵥ x) i) := by
      intro d
      rw [← Matrix.mulVec_mulVec, ← Matrix.mulVec_mulVec, Matrix.dotProduct_mulVec,
        ← Matrix.mulVec_transpose]
      unfold dotProduct
      refine Finset.sum_congr rfl fun i _ => ?_
      rw [Matrix.mulVec_diagonal]
      ring
    have hx : x ⬝ᵥ x = ∑ i, (1 : ℝ) * ((Qᵀ *ᵥ x) i * (Qᵀ *ᵥ x) i) := by
      rw [← hq (fun _ => 1)]
      have : (diagonal fun _ : Fin m => (1 : ℝ)) = 1 := Matrix.diagonal_one
      rw [this, Matrix.mul_one, hQ, Matrix.one_mulVec]
    have hb : ∀ i, 0 ≤ e i - clipout (e i) ∧ e i - clipout (e i) ≤ 1 / 1000000 := by
      intro i
      unfold clipout
      split
      · constructor
        · linarith
        · norm_num
      · rename_i h
        have := he i
        constructor <;> linarith
    rw [hd, hq]
    refine ⟨Finset.sum_nonneg fun i _ => mul_nonneg (hb i).1 (mul_self_nonneg _), ?_⟩
    rw [hx, Finset.mul_sum]
    refine Finset.sum_le_sum fun i _ => ?_
    rw [one_mul]
    exact mul_le_mul_of_nonneg_right (hb i).2 (mul_self_nonneg _)
  · intro h
    rw [factor_eq, ← hA]
    congr 3
    funext i
    unfold clipout
    rcases h i with h1 | h1
    · rw [h1]; norm_num
    · rw [if_pos h1]

end layer

/-! ## All layers: the trust region -/

/-- A block with orthogonal eigenvectors and positive damping. -/
def Block.Good (f : Bool) (eps : ℝ) : Block → Prop
  | .dense m n G b QA eA QG eG wd =>
      QA * QAᵀ = 1 ∧ QG * QGᵀ = 1 ∧ 0 < eps + wd ∧ Traces f QA eA QG eG
  | .plain n g => True

/-- The quadratic form of the damped Fisher block at what the block holds; the identity for a
variable without statistics.  The bias is the last row. -/
noncomputable def Block.energy (f : Bool) (eps : ℝ) : Block → ℝ
  | .dense m n G b QA eA QG eG wd =>
      inner (stack G b) (Fisher f (eps + wd) QA eA QG eG (stack G b))
  | .plain n g => ∑ j, g j * g j

/-- All the gradients of a block are zero. -/
def Block.Zero : Block → Prop
  | .dense m n G b QA eA QG eG wd => G = 0 ∧ b = 0
  | .plain n g => g = 0

theorem stack_eq_zero {m n : ℕ} {G : Matrix (Fin m) (Fin n) ℝ} {b : Fin n → ℝ} :
    stack G b = 0 ↔ G = 0 ∧ b = 0 := by
  constructor
  · intro h
    constructor
    · ext i j
      have := congrFun (congrFun h i.castSucc) j
      simpa [stack] using this
    · ext j
      have := congrFun (congrFun h (Fin.last m)) j
      simpa [stack] using this
  · rintro ⟨h1, h2⟩
    subst h1; subst h2
    ext i j
    refine Fin.lastCases ?_ (fun i => ?_) i <;> simp [stack]

theorem dot_update {f : Bool} {eps : ℝ} {b : Block} (hb : b.Good f eps) :
    dot (b.update f eps) b = (b.update f eps).energy f eps := by
  cases b with
  | plain n g => simp [Block.update, dot, Block.energy]
  | dense m n G b QA eA QG eG wd =>
      obtain ⟨hA, hG, hl, ht⟩ := hb
      simp only [Block.update, Block.energy]
      rw [dot_dense, stack_unstack, (C120_solves hl hA hG ht (stack G b) _).2 rfl]

theorem energy_nonneg {f : Bool} {eps : ℝ} {b : Block} (hb : b.Good f eps) :
    0 ≤ b.energy f eps := by
  cases b with
  | plain n g => exact Finset.sum_nonneg fun j _ => mul_self_nonneg _
  | dense m n G b QA eA QG eG wd =>
      obtain ⟨hA, hG, hl, ht⟩ := hb
      exact (fisher_inner_nonneg hl hA hG ht _).1

theorem good_update {f : Bool} {eps : ℝ} {b : Block} (hb : b.Good f eps) :
    (b.update f eps).Good f eps := by
  cases b with
  | plain n g => trivial
  | dense m n G b QA eA QG eG wd => exact hb

theorem dot_update_eq_zero {f : Bool} {eps : ℝ} {b : Block} (hb : b.Good f eps) :
    dot (b.update f eps) b = 0 ↔ b.Zero := by
  cases b with
  | plain n g =>
      simp only [Block.update, dot, Block.Zero]
      constructor
      · intro h
        simp only [dif_pos, Fin.cast_refl] at h
        funext j
        have := (Finset.sum_eq_zero_iff_of_nonneg fun j _ => mul_self_nonneg _).1 h j
          (Finset.mem_univ _)
        exact mul_self_eq_zero.1 this
      · intro h; subst h; simp
  | dense m n G b QA eA QG eG wd =>
      obtain ⟨hA, hG, hl, ht⟩ := hb
      simp only [Block.update, Block.Zero]
      rw [dot_dense, stack_unstack, ← stack_eq_zero]
      constructor
      · intro h
        by_contra hz
        have := C120_descent hl hA hG ht _ hz
        exact absurd h this.ne'
      · intro h
        rw [h]; simp [inner]

theorem stack_smul {m n : ℕ} (s : ℝ) (G : Matrix (Fin m) (Fin n) ℝ) (b : Fin n → ℝ) :
    stack (s • G) (s • b) = s • stack G b := by
  ext i j
  refine Fin.lastCases ?_ (fun i => ?_) i <;> simp [stack]

theorem energy_scale (f : Bool) (eps s : ℝ) (b : Block) :
    (b.scale s).energy f eps = s * s * b.energy f eps := by
  cases b with
  | plain n g =>
      simp only [Block.scale, Block.energy, Pi.smul_apply, smul_eq_mul]
      rw [Finset.mul_sum]
      exact Finset.sum_congr rfl fun j _ => by ring
  | dense m n G b QA eA QG eG wd =>
      simp only [Block.scale, Block.energy]
      rw [stack_smul]
      have : Fisher f (eps + wd) QA eA QG eG (s • stack G b) =
          s • Fisher f (eps + wd) QA eA QG eG (stack G b) := by
        cases f
        · simp only [Fisher, Matrix.mul_smul, Matrix.smul_mul, smul_add]
          rw [smul_comm (eps + wd) s]
        · simp only [Fisher, Matrix.mul_smul, Matrix.smul_mul]
      rw [this]
      unfold inner
      rw [Finset.mul_sum]
      refine Finset.sum_congr rfl fun i _ => ?_
      rw [Finset.mul_sum]
      refine Finset.sum_congr rfl fun j _ => ?_
      simp only [Matrix.smul_apply, smul_eq_mul]
      ring

theorem vg_energy {f : Bool} {eps lr : ℝ} {bs : List Block} (h : ∀ b ∈ bs, b.Good f eps) :
    vg f eps lr bs = (bs.map fun b => lr * lr * (b.update f eps).energy f eps).sum := by
  unfold vg
  congr 1
  refine List.map_congr_left fun b hb => ?_
  rw [dot_update (h b hb)]; ring

/-- **C120 (the size of the update).**  `v_g` is never negative, and zero only if the learning
rate or all gradients are zero. -/
theorem C120_size {f : Bool} {eps lr : ℝ} {bs : List Block} (h : ∀ b ∈ bs, b.Good f eps) :
    0 ≤ vg f eps lr bs ∧ (vg f eps lr bs = 0 ↔ lr = 0 ∨ ∀ b ∈ bs, b.Zero) := by
  have hn : ∀ x ∈ bs.map (fun b => dot (b.update f eps) b * (lr * lr)), 0 ≤ x := by
    intro x hx
    obtain ⟨b, hb, rfl⟩ := List.mem_map.1 hx
    rw [dot_update (h b hb)]
    exact mul_nonneg (energy_nonneg (good_update (h b hb))) (mul_self_nonneg _)
  refine ⟨List.sum_nonneg hn, ?_⟩
  unfold vg
  constructor
  · intro h0
    rcases eq_or_ne lr 0 with hl | hl
    · exact Or.inl hl
    · refine Or.inr fun b hb => ?_
      have h1 := List.single_le_sum hn _ (List.mem_map.2 ⟨b, hb, rfl⟩)
      have h2 := hn _ (List.mem_map.2 ⟨b, hb, rfl⟩)
      rw [h0] at h1
      rcases mul_eq_zero.1 (le_antisymm h1 h2) with h3 | h3
      · exact (dot_update_eq_zero (h b hb)).1 h3
      · exact absurd (mul_self_eq_zero.1 h3) hl
  · intro hz
    apply List.sum_eq_zero
    intro x hx
    obtain ⟨b, hb, rfl⟩ := List.mem_map.1 hx
    rcases hz with hz | hz
    · rw [hz]; ring
    · rw [(dot_update_eq_zero (h b hb)).2 (hz b hb)]; ring

theorem scaling_sq {clip v : ℝ} (hc : 0 < clip) (hv : 0 ≤ v) :
    scaling clip v * scaling clip v * v = min v clip := by
  unfold scaling
  split
  · rename_i h; subst h; simp [hc.le]
  · rename_i h
    have hp : 0 < v := lt_of_le_of_ne hv (Ne.symm h)
    rcases le_total v clip with h1 | h1
    · have : 1 ≤ Real.sqrt (clip / v) := by
        rw [Real.one_le_sqrt]; exact (one_le_div hp).2 h1
      rw [min_eq_left this, min_eq_left h1]; ring
    · have : Real.sqrt (clip / v) ≤ 1 := by
        rw [Real.sqrt_le_one]; exact (div_le_one hp).2 h1
      rw [min_eq_right this, min_eq_right h1, Real.mul_self_sqrt (by positivity)]
      field_simp

/-- **C120 (the trust region).**  The quadratic form of the damped Fisher matrix at the move
`lr * update` of all variables together is the smaller of `v_g` and `clip_kl`: never more than
`clip_kl`. -/
theorem C120_trust {f : Bool} {eps lr clip : ℝ} (hc : 0 < clip) {bs : List Block}
    (h : ∀ b ∈ bs, b.Good f eps) :
    (((updates f eps lr clip bs).map (Block.scale lr)).map (Block.energy f eps)).sum =
      min (vg f eps lr bs) clip := by
  rw [← scaling_sq hc (C120_size h).1, vg_energy h]
  unfold updates
  rw [vg_energy h]
  generalize scaling clip _ = s
  simp only [List.map_map]
  rw [← List.sum_map_mul_left]
  congr 1
  refine List.map_congr_left fun b hb => ?_
  simp only [Function.comp_apply, energy_scale]
  ring

/-- **C120 (one factor for all).**  The updates are the preconditioned gradients times one
number between zero and one, and that number is one exactly when `v_g` is within `clip_kl`. -/
theorem C120_scaling {f : Bool} {eps lr clip : ℝ} (hc : 0 < clip) {bs : List Block}
    (h : ∀ b ∈ bs, b.Good f eps) :
    ∃ s : ℝ, 0 < s ∧ s ≤ 1 ∧ (s = 1 ↔ vg f eps lr bs ≤ clip) ∧
      updates f eps lr clip bs = bs.map fun b => (b.update f eps).scale s := by
  have hv := (C120_size (lr := lr) h).1
  refine ⟨scaling clip (vg f eps lr bs), ?_, ?_, ?_, rfl⟩ <;>
    generalize vg f eps lr bs = v at * <;> unfold scaling
  · split
    · norm_num
    · rename_i h0
      have hp : 0 < v := lt_of_le_of_ne hv (Ne.symm h0)
      exact lt_min (by norm_num) (Real.sqrt_pos.2 (by positivity))
  · split
    · exact le_refl _
    · exact min_le_left _ _
  · split
    · rename_i h0; subst h0; simp [hc.le]
    · rename_i h0
      have hp : 0 < v := lt_of_le_of_ne hv (Ne.symm h0)
      rw [min_eq_left_iff, Real.one_le_sqrt, one_le_div hp]

/-- **C120 (each block is its own).**  Unpacked: the new weights and bias of a dense layer,
stacked, solve the Fisher system of this layer; a variable without statistics keeps its
gradient. -/
theorem C120_blocks {f : Bool} {eps : ℝ} :
    (∀ m n G b QA eA QG eG wd, (Block.dense m n G b QA eA QG eG wd).Good f eps →
      ∃ G' b', (Block.dense m n G b QA eA QG eG wd).update f eps =
          .dense m n G' b' QA eA QG eG wd ∧
        Fisher f (eps + wd) QA eA QG eG (stack G' b') = stack G b) ∧
    (∀ n g, (Block.plain n g).update f eps = .plain n g) := by
  refine ⟨?_, fun n g => rfl⟩
  rintro m n G b QA eA QG eG wd ⟨hA, hG, hl, ht⟩
  exact ⟨_, _, rfl, by rw [stack_unstack]; exact (C120_solves hl hA hG ht _ _).2 rfl⟩

/-! ## Statistics -/

/-- **C120 (covariances).**  The forward covariance is the mean of the products of the
activations with a one for the bias: the corner is 1 and the last row the mean activation.  If
the backward signals are those of an averaged loss, the backward covariance is the mean of the
products of the signals of the samples. -/
theorem C120_covariance {B m n : ℕ} (hB : 0 < B) (F : Matrix (Fin B) (Fin m) ℝ)
    (g : Matrix (Fin B) (Fin n) ℝ) :
    (∀ i j : Fin m, covA (homog F) i.castSucc j.castSucc = (∑ k, F k i * F k j) / B) ∧
    (∀ j : Fin m, covA (homog F) (Fin.last m) j.castSucc = (∑ k, F k j) / B) ∧
    (∀ i : Fin m, covA (homog F) i.castSucc (Fin.last m) = (∑ k, F k i) / B) ∧
    covA (homog F) (Fin.last m) (Fin.last m) = 1 ∧
    (∀ i j : Fin n, covG (Matrix.of fun k i => g k i / B) i j = (∑ k, g k i * g k j) / B) := by
  have hB' : (B : ℝ) ≠ 0 := by exact_mod_cast hB.ne'
  refine ⟨?_, ?_, ?_, ?_, ?_⟩
  · intro i j; simp [covA, homog, Matrix.mul_apply]; ring
  · intro j; simp [covA, homog, Matrix.mul_apply]; ring
  · intro j; simp [covA, homog, Matrix.mul_apply]; ring
  · simp [covA, homog, Matrix.mul_apply, hB']
  · intro i j
    simp only [covG, Matrix.smul_apply, Matrix.mul_apply, Matrix.transpose_apply, smul_eq_mul,
      Matrix.of_apply]
    rw [one_div, inv_mul_eq_div]
    congr 1
    refine Finset.sum_congr rfl fun k _ => ?_
    field_simp

section run
variable {E M Q : Type} [AddCommGroup E] [Module ℝ E] [AddCommGroup M] [Module ℝ M]
variable {c : Cfg} {clip : E → E} {eigh : M → Q} {pre : Q → ℝ → E → E}

theorem run_snoc (s : St E M Q) (xs : List (Input E M)) (x : Input E M) :
    run c clip eigh pre s (xs ++ [x]) = step c clip eigh pre (run c clip eigh pre s xs) x := by
  simp [run]

theorem statsPhase_w (x : Input E M) (s : St E M Q) :
    (statsPhase c eigh x s).w = s.w ∧ (statsPhase c eigh x s).acc = s.acc ∧
    (statsPhase c eigh x s).accCold = s.accCold ∧
    (statsPhase c eigh x s).sgdStep = s.sgdStep ∧
    (statsPhase c eigh x s).stats = applyStats c s.statsStep s.stats x.cov ∧
    (statsPhase c eigh x s).statsStep = s.statsStep + 1 ∧
    (statsPhase c eigh x s).globalStep = s.globalStep + 1 := by
  unfold statsPhase; dsimp only; split <;> exact ⟨rfl, rfl, rfl, rfl, rfl, rfl, rfl⟩

theorem kfacPhase_other (x : Input E M) (seen : ℕ) (s : St E M Q) :
    (kfacPhase c pre x seen s).accCold = s.accCold ∧
    (kfacPhase c pre x seen s).stats = s.stats ∧ (kfacPhase c pre x seen s).eig = s.eig ∧
    (kfacPhase c pre x seen s).sgdStep = s.sgdStep ∧
    (kfacPhase c pre x seen s).statsStep = s.statsStep ∧
    (kfacPhase c pre x seen s).factorStep = s.factorStep ∧
    (kfacPhase c pre x seen s).coldStep = s.coldStep ∧
    (kfacPhase c pre x seen s).globalStep = s.globalStep := by
  unfold kfacPhase; dsimp only; split <;> exact ⟨rfl, rfl, rfl, rfl, rfl, rfl, rfl, rfl⟩

theorem step_other (x : Input E M) (s : St E M Q) :
    (step c clip eigh pre s x).stats = applyStats c s.statsStep s.stats x.cov ∧
    (step c clip eigh pre s x).statsStep = s.statsStep + 1 ∧
    (step c clip eigh pre s x).globalStep = s.globalStep + 1 ∧
    (step c clip eigh pre s x).sgdStep =
      (if s.sgdStep ≤ c.cold then s.sgdStep + 1 else s.sgdStep) ∧
    (step c clip eigh pre s x).eig = (statsPhase c eigh x s).eig ∧
    (step c clip eigh pre s x).factorStep = (statsPhase c eigh x s).factorStep ∧
    (step c clip eigh pre s x).coldStep = (statsPhase c eigh x s).coldStep := by
  obtain ⟨a1, a2, a3, a4, a5, a6, a7⟩ := statsPhase_w (c := c) (eigh := eigh) x s
  unfold step
  dsimp only
  generalize hseen : (if s.sgdStep ≤ c.cold ∧ x.late = true then s.sgdStep + 1 else s.sgdStep) = r
  obtain ⟨b1, b2, b3, b4, b5, b6, b7, b8⟩ :=
    kfacPhase_other (c := c) (pre := pre) x r (statsPhase c eigh x s)
  split
  · simp only [coldPhase]
    exact ⟨b2.trans a5, b5.trans a6, b8.trans a7, by rw [b4, a4], b3, b6, b7⟩
  · exact ⟨b2.trans a5, b5.trans a6, b8.trans a7, b4.trans a4, b3, b6, b7⟩

theorem icc_succ (t : ℕ) : Finset.Icc 1 (t + 1) = insert (t + 1) (Finset.Icc 1 t) := by
  ext k; simp only [Finset.mem_Icc, Finset.mem_insert]; omega

/-- **C120 (the counters).**  After `t` steps every step has updated the statistics, at most
`cold_iter + 1` of them were cold, and the factors were computed at the multiples of
`kfac_update` from `cold_iter` on. -/
theorem C120_counters (w : E) (q : Q) (xs : List (Input E M)) :
    (run c clip eigh pre (start w q) xs).sgdStep = min xs.length (c.cold + 1) ∧
    (run c clip eigh pre (start w q) xs).statsStep = xs.length ∧
    (run c clip eigh pre (start w q) xs).globalStep = xs.length ∧
    (run c clip eigh pre (start w q) xs).factorStep =
      ((Finset.Icc 1 xs.length).filter fun k => c.kfacUpdate ∣ k ∧ c.cold ≤ k).card ∧
    (run c clip eigh pre (start w q) xs).factorStep +
      (run c clip eigh pre (start w q) xs).coldStep = xs.length := by
  induction xs using List.reverseRecOn with
  | nil => simp [run, start]
  | append_singleton xs x ih =>
      obtain ⟨h1, h2, h3, h4, h5⟩ := ih
      rw [run_snoc]
      generalize run c clip eigh pre (start w q) xs = s at *
      obtain ⟨b1, b2, b3, b4, b5, b6, b7⟩ :=
        step_other (c := c) (clip := clip) (eigh := eigh) (pre := pre) x s
      rw [List.length_append, List.length_singleton]
      refine ⟨?_, by omega, by omega, ?_, ?_⟩
      · rw [b4, h1]; split <;> omega
      · rw [b6, icc_succ, Finset.filter_insert, ← h2]
        unfold statsPhase
        dsimp only
        by_cases hk : (s.statsStep + 1) % c.kfacUpdate = 0 ∧ c.cold ≤ s.statsStep + 1
        · rw [if_pos hk, if_pos ⟨Nat.dvd_of_mod_eq_zero hk.1, hk.2⟩,
            Finset.card_insert_of_notMem (by simp), h4, h2]
        · rw [if_neg hk, if_neg (fun h => hk ⟨Nat.mod_eq_zero_of_dvd h.1, h.2⟩), h2]
          exact h4
      · rw [b6, b7, ← h5]
        unfold statsPhase
        dsimp only
        split <;> simp <;> omega

/-- The weight of the covariance of step `k` in the statistics after `t` steps. -/
noncomputable def weight (cold : ℕ) (decay : ℝ) (t k : ℕ) : ℝ :=
  if k < cold then decay ^ (t - cold) / cold else (1 - decay) * decay ^ (t - 1 - k)

theorem stats_accum (w : E) (q : Q) (xs : List (Input E M)) (ht : xs.length ≤ c.cold) :
    (run c clip eigh pre (start w q) xs).stats =
      (1 / (c.cold : ℝ)) • (xs.map Input.cov).sum := by
  induction xs using List.reverseRecOn with
  | nil => simp [run, start]
  | append_singleton xs x ih =>
      rw [List.length_append, List.length_singleton] at ht
      rw [run_snoc]
      obtain ⟨b1, -⟩ := step_other (c := c) (clip := clip) (eigh := eigh) (pre := pre) x
        (run c clip eigh pre (start w q) xs)
      have h2 := (C120_counters (c := c) (clip := clip) (eigh := eigh) (pre := pre) w q xs).2.1
      rw [b1, h2, ih (by omega)]
      unfold applyStats
      rw [if_neg (by omega)]
      simp [List.sum_append]

/-- **C120 (the statistics).**  In the cold phase the statistics are the part of the mean seen
so far; after `cold_iter` steps exactly the mean of the covariances; from then on the running
average, with the weights spelled out. -/
theorem C120_average (w : E) (q : Q) (xs : List (Input E M)) (hc : 0 < c.cold) :
    (xs.length ≤ c.cold → (run c clip eigh pre (start w q) xs).stats =
      (1 / (c.cold : ℝ)) • (xs.map Input.cov).sum) ∧
    (c.cold ≤ xs.length → (run c clip eigh pre (start w q) xs).stats =
      ∑ k : Fin xs.length, weight c.cold c.decay xs.length k • xs[k].cov) := by
  refine ⟨stats_accum w q xs, ?_⟩
  induction xs using List.reverseRecOn with
  | nil => intro h; simp at h; omega
  | append_singleton xs x ih =>
      intro ht
      rw [List.length_append, List.length_singleton] at ht
      rcases Nat.lt_or_ge xs.length c.cold with hlt | hge
      · have he : (xs ++ [x]).length = c.cold := by simp; omega
        rw [stats_accum w q _ he.le, ← Fin.sum_univ_getElem, Finset.smul_sum]
        refine Fintype.sum_equiv (finCongr (by simp)) _ _ ?_
        intro k
        have hk : (k : ℕ) < c.cold := by have := k.isLt; simp at this; omega
        simp only [finCongr_apply, Fin.val_cast, weight]
        rw [if_pos hk, show (xs ++ [x]).length - c.cold = 0 by omega]
        rw [List.getElem_map]
        simp
      · rw [run_snoc]
        obtain ⟨b1, -⟩ := step_other (c := c) (clip := clip) (eigh := eigh) (pre := pre) x
          (run c clip eigh pre (start w q) xs)
        have h2 := (C120_counters (c := c) (clip := clip) (eigh := eigh) (pre := pre) w q xs).2.1
        rw [b1, h2, ih hge]
        unfold applyStats
        rw [if_pos hge, Finset.smul_sum]
        have hl : (xs ++ [x]).length = xs.length + 1 := by simp
        have := (Fintype.sum_equiv (finCongr hl)
          (fun k : Fin (xs ++ [x]).length =>
            weight c.cold c.decay (xs ++ [x]).length k • (xs ++ [x])[k].cov)
          (fun k : Fin (xs.length + 1) =>
            weight c.cold c.decay (xs.length + 1) k • ((xs ++ [x])[(k : ℕ)]'(by
              rw [hl]; exact k.isLt)).cov) (fun k => by simp [finCongr_apply]))
        rw [this, Fin.sum_univ_castSucc]
        congr 1
        · refine Finset.sum_congr rfl fun k _ => ?_
          have hk := k.isLt
          simp only [Fin.val_castSucc, List.getElem_append_left hk, smul_smul, Fin.getElem_fin]
          congr 1
          unfold weight
          split
          · rw [show xs.length + 1 - c.cold = (xs.length - c.cold) + 1 by omega, pow_succ]; ring
          · rw [show xs.length + 1 - 1 - (k : ℕ) = (xs.length - 1 - k) + 1 by omega, pow_succ]; ring
        · simp [weight, Nat.not_lt.2 hge]

/-- The weights of the average are not negative and sum to one. -/
theorem weight_sum {cold t : ℕ} {decay : ℝ} (h0 : 0 ≤ decay) (h1 : decay ≤ 1) (hc : 0 < cold)
    (ht : cold ≤ t) :
    (∀ k, 0 ≤ weight cold decay t k) ∧ ∑ k : Fin t, weight cold decay t k = 1 := by
  constructor
  · intro k
    unfold weight
    split
    · positivity
    · exact mul_nonneg (by linarith) (by positivity)
  · obtain ⟨d, rfl⟩ := Nat.exists_eq_add_of_le ht
    rw [Fin.sum_univ_eq_sum_range (fun k => weight cold decay (cold + d) k)]
    rw [Finset.sum_range_add]
    have hcold : (cold : ℝ) ≠ 0 := by exact_mod_cast hc.ne'
    have e1 : ∑ k ∈ Finset.range cold, weight cold decay (cold + d) k = decay ^ d := by
      rw [Finset.sum_congr rfl (g := fun _ => decay ^ d / cold)]
      · rw [Finset.sum_const, Finset.card_range, nsmul_eq_mul]; field_simp
      · intro k hk
        rw [weight, if_pos (Finset.mem_range.1 hk), Nat.add_sub_cancel_left]
    have e2 : ∑ k ∈ Finset.range d, weight cold decay (cold + d) (cold + k) = 1 - decay ^ d := by
      rw [Finset.sum_congr rfl (g := fun k => (1 - decay) * decay ^ (d - 1 - k))]
      · rw [← Finset.mul_sum, Finset.sum_range_reflect (fun k => decay ^ k) d, mul_comm,
          ← mul_neg_geom_sum decay d, mul_comm]
      · intro k hk
        rw [weight, if_neg (by omega)]
        congr 2
        omega
    rw [e1, e2]; ring

/-- **C120 (within the data).**  From `cold_iter` steps on every linear quantity of the
statistics, for instance a quadratic form, lies between the smallest and the largest value it
has on the covariances; positive semidefinite covariances give positive semidefinite
statistics, and the corner of the bias is 1. -/
theorem C120_within (w : E) (q : Q) (xs : List (Input E M)) (hc : 0 < c.cold)
    (hl : c.cold ≤ xs.length) (h0 : 0 ≤ c.decay) (h1 : c.decay ≤ 1) (phi : M →ₗ[ℝ] ℝ) (lo hi : ℝ)
    (hx : ∀ x ∈ xs, lo ≤ phi x.cov ∧ phi x.cov ≤ hi) :
    lo ≤ phi (run c clip eigh pre (start w q) xs).stats ∧
      phi (run c clip eigh pre (start w q) xs).stats ≤ hi := by
  obtain ⟨p, q'⟩ := weight_sum (t := xs.length) h0 h1 hc hl
  rw [(C120_average w q xs hc).2 hl, map_sum]
  simp only [map_smul, smul_eq_mul]
  constructor
  · calc lo = ∑ k : Fin xs.length, weight c.cold c.decay xs.length k * lo := by
          rw [← Finset.sum_mul, q', one_mul]
      _ ≤ _ := Finset.sum_le_sum fun k _ =>
          mul_le_mul_of_nonneg_left (hx _ (List.getElem_mem _)).1 (p k)
  · calc _ ≤ ∑ k : Fin xs.length, weight c.cold c.decay xs.length k * hi :=
          Finset.sum_le_sum fun k _ =>
          mul_le_mul_of_nonneg_left (hx _ (List.getElem_mem _)).2 (p k)
      _ = hi := by rw [← Finset.sum_mul, q', one_mul]

/-- **C120 (which factors).**  The factors in use after `t` steps are the decomposition of the
statistics after the last multiple of `kfac_update` that is at least `cold_iter`. -/
theorem C120_factors (w : E) (q : Q) (xs : List (Input E M)) (k : ℕ) (hk : 0 < k)
    (hd : c.kfacUpdate ∣ k) (hc : c.cold ≤ k) (hkt : k ≤ xs.length)
    (hlast : ∀ k', k < k' → k' ≤ xs.length → ¬ c.kfacUpdate ∣ k') :
    (run c clip eigh pre (start w q) xs).eig =
      eigh (run c clip eigh pre (start w q) (xs.take k)).stats := by
  induction xs using List.reverseRecOn with
  | nil => simp at hkt; omega
  | append_singleton xs x ih =>
      rw [List.length_append, List.length_singleton] at hkt hlast
      obtain ⟨b1, b2, b3, b4, b5, b6, b7⟩ :=
        step_other (c := c) (clip := clip) (eigh := eigh) (pre := pre) x
          (run c clip eigh pre (start w q) xs)
      have h2 := (C120_counters (c := c) (clip := clip) (eigh := eigh) (pre := pre) w q xs).2.1
      rcases Nat.lt_or_ge xs.length k with hlt | hge
      · have : k = xs.length + 1 := by omega
        rw [List.take_of_length_le (by simp; omega), run_snoc, b5, b1]
        unfold statsPhase
        dsimp only
        rw [if_pos ⟨Nat.mod_eq_zero_of_dvd (by rw [h2, ← this]; exact hd), by omega⟩]
      · rw [List.take_append_of_le_length hge, run_snoc, b5,
          ← ih hge (fun k' a b => hlast k' a (by omega))]
        unfold statsPhase
        dsimp only
        rw [if_neg]
        rintro ⟨a, -⟩
        rw [h2] at a
        exact hlast _ (by omega) (by omega) (Nat.dvd_of_mod_eq_zero a)

/-- **C120 (who moves the parameters).**  Step `t` (from zero): the cold optimiser moves them
for `t ≤ cold_iter`, the K-FAC optimiser for `t ≥ cold_iter`, and also at `t = cold_iter - 1`
if its read of the counter comes late.  The K-FAC optimiser takes the preconditioned gradient
if factors were computed, that is if a multiple of `kfac_update` lies between `cold_iter` and
`t + 1`, and the bare gradient otherwise. -/
theorem C120_moves (w : E) (q : Q) (xs : List (Input E M)) (x : Input E M) (hc : 0 < c.cold) :
    ∃ u : E,
      ((∃ k, 0 < k ∧ k ≤ xs.length + 1 ∧ c.kfacUpdate ∣ k ∧ c.cold ≤ k) →
        u = pre (run c clip eigh pre (start w q) (xs ++ [x])).eig x.lr x.grad) ∧
      ((¬ ∃ k, 0 < k ∧ k ≤ xs.length + 1 ∧ c.kfacUpdate ∣ k ∧ c.cold ≤ k) → u = x.grad) ∧
      (run c clip eigh pre (start w q) (xs ++ [x])).w =
        (run c clip eigh pre (start w q) xs).w
        - (if c.cold ≤ xs.length ∨ xs.length + 1 = c.cold ∧ x.late = true then
            (x.lr * (1 - c.momentum)) •
              (c.momentum • (run c clip eigh pre (start w q) xs).acc + u) else 0)
        - (if xs.length ≤ c.cold then
            x.lr • (c.momentum • (run c clip eigh pre (start w q) xs).accCold + clip x.grad)
           else 0) := by
  obtain ⟨n1, n2, n3, n4, n5⟩ :=
    C120_counters (c := c) (clip := clip) (eigh := eigh) (pre := pre) w q xs
  obtain ⟨m1, m2, m3, m4, m5⟩ :=
    C120_counters (c := c) (clip := clip) (eigh := eigh) (pre := pre) w q (xs ++ [x])
  rw [run_snoc] at *
  generalize run c clip eigh pre (start w q) xs = s at *
  obtain ⟨b1, b2, b3, b4, b5, b6, b7⟩ :=
    step_other (c := c) (clip := clip) (eigh := eigh) (pre := pre) x s
  obtain ⟨a1, a2, a3, a4, a5, a6, a7⟩ := statsPhase_w (c := c) (eigh := eigh) x s
  rw [b6, List.length_append, List.length_singleton] at m4
  refine ⟨if 0 < (statsPhase c eigh x s).factorStep then
    pre (statsPhase c eigh x s).eig x.lr x.grad else x.grad, ?_, ?_, ?_⟩
  · rintro ⟨k, k1, k2, k3, k4⟩
    rw [if_pos, b5]
    rw [m4, Finset.card_pos]
    exact ⟨k, by simp; omega⟩
  · intro hno
    rw [if_neg]
    rw [m4, Finset.card_pos]
    rintro ⟨k, hk⟩
    simp only [Finset.mem_filter, Finset.mem_Icc] at hk
    exact hno ⟨k, by omega, by omega, hk.2.1, hk.2.2⟩
  · have hcold : s.sgdStep ≤ c.cold ↔ xs.length ≤ c.cold := by omega
    have hseen : c.cold ≤ (if s.sgdStep ≤ c.cold ∧ x.late = true then s.sgdStep + 1
        else s.sgdStep) ↔ (c.cold ≤ xs.length ∨ xs.length + 1 = c.cold ∧ x.late = true) := by
      cases x.late <;> simp <;> (try split) <;> omega
    unfold step
    dsimp only
    have hk := kfacPhase_other (c := c) (pre := pre) x
      (if s.sgdStep ≤ c.cold ∧ x.late = true then s.sgdStep + 1 else s.sgdStep)
      (statsPhase c eigh x s)
    have hw : (kfacPhase c pre x
        (if s.sgdStep ≤ c.cold ∧ x.late = true then s.sgdStep + 1 else s.sgdStep)
        (statsPhase c eigh x s)).w = s.w -
          (if c.cold ≤ xs.length ∨ xs.length + 1 = c.cold ∧ x.late = true then
            (x.lr * (1 - c.momentum)) • (c.momentum • s.acc +
              (if 0 < (statsPhase c eigh x s).factorStep then
                pre (statsPhase c eigh x s).eig x.lr x.grad else x.grad)) else 0) := by
      unfold kfacPhase
      dsimp only
      by_cases hs : c.cold ≤ xs.length ∨ xs.length + 1 = c.cold ∧ x.late = true
      · rw [if_pos (hseen.2 hs), if_pos hs]
        simp only [a1, a2]
      · rw [if_neg (fun h => hs (hseen.1 h)), if_neg hs, a1, sub_zero]
    by_cases hs : xs.length ≤ c.cold
    · rw [if_pos (hcold.2 hs), if_pos hs]
      simp only [coldPhase]
      rw [hw, hk.1, a3]
    · rw [if_neg (fun h => hs (hcold.1 h)), if_neg hs, hw, sub_zero]

/-- **C120 (defect: the step both optimisers take).**  In step `cold_iter` (from zero) the cold
optimiser and the K-FAC optimiser both move the parameters along the same gradient. -/
theorem C120_both (w : E) (q : Q) (xs : List (Input E M)) (x : Input E M) (hc : 0 < c.cold)
    (ht : xs.length = c.cold) :
    ∃ u : E, (run c clip eigh pre (start w q) (xs ++ [x])).w =
        (run c clip eigh pre (start w q) xs).w
        - (x.lr * (1 - c.momentum)) •
            (c.momentum • (run c clip eigh pre (start w q) xs).acc + u)
        - x.lr • (c.momentum • (run c clip eigh pre (start w q) xs).accCold + clip x.grad) := by
  obtain ⟨u, -, -, h⟩ := C120_moves (clip := clip) (eigh := eigh) (pre := pre) w q xs x hc
  rw [if_pos (Or.inl ht.ge), if_pos ht.le] at h
  exact ⟨u, h⟩

/-- **C120 (defect: bare gradients after the cold phase).**  When `kfac_update` is large, the
steps after the cold phase and before the first multiple of `kfac_update` move the parameters
along the gradient itself, with no preconditioning, no trust region and no clipping. -/
theorem C120_bare (w : E) (q : Q) (xs : List (Input E M)) (x : Input E M) (hc : 0 < c.cold)
    (ht : c.cold < xs.length) (hk : xs.length + 1 < c.kfacUpdate) :
    (run c clip eigh pre (start w q) (xs ++ [x])).w =
      (run c clip eigh pre (start w q) xs).w - (x.lr * (1 - c.momentum)) •
        (c.momentum • (run c clip eigh pre (start w q) xs).acc + x.grad) := by
  obtain ⟨u, -, h2, h⟩ := C120_moves (clip := clip) (eigh := eigh) (pre := pre) w q xs x hc
  rw [if_pos (Or.inl ht.le), if_neg (by omega), sub_zero, h2] at h
  · exact h
  · rintro ⟨k, k1, k2, k3, k4⟩
    exact absurd (Nat.le_of_dvd k1 k3) (by omega)

theorem step_acc (x : Input E M) (s : St E M Q) :
    ((step c clip eigh pre s x).acc = s.acc ∨ ∃ u, (u = x.grad ∨ ∃ e, u = pre e x.lr x.grad) ∧
      (step c clip eigh pre s x).acc = c.momentum • s.acc + u) ∧
    ((step c clip eigh pre s x).accCold = s.accCold ∨
      (step c clip eigh pre s x).accCold = c.momentum • s.accCold + clip x.grad) := by
  obtain ⟨a1, a2, a3, a4, a5, a6, a7⟩ := statsPhase_w (c := c) (eigh := eigh) x s
  unfold step
  dsimp only
  generalize (if s.sgdStep ≤ c.cold ∧ x.late = true then s.sgdStep + 1 else s.sgdStep) = r
  have hk := (kfacPhase_other (c := c) (pre := pre) x r (statsPhase c eigh x s)).1
  have hacc : (kfacPhase c pre x r (statsPhase c eigh x s)).acc = s.acc ∨
      ∃ u, (u = x.grad ∨ ∃ e, u = pre e x.lr x.grad) ∧
      (kfacPhase c pre x r (statsPhase c eigh x s)).acc = c.momentum • s.acc + u := by
    unfold kfacPhase
    dsimp only
    split
    · right
      simp only [a2]
      refine ⟨_, ?_, rfl⟩
      split
      · exact Or.inr ⟨_, rfl⟩
      · exact Or.inl rfl
    · exact Or.inl a2
  split
  · exact ⟨hacc, Or.inr (by simp only [coldPhase, hk, a3])⟩
  · exact ⟨hacc, Or.inl (hk.trans a3)⟩

theorem mom_bound {m B a b : ℝ} (h0 : 0 ≤ m) (h1 : m < 1) (ha : |a| ≤ B / (1 - m))
    (hb : |b| ≤ B) : |m * a + b| ≤ B / (1 - m) := by
  have hp : 0 < 1 - m := by linarith
  calc |m * a + b| ≤ |m * a| + |b| := abs_add_le _ _
    _ ≤ m * (B / (1 - m)) + B := by
        rw [abs_mul, abs_of_nonneg h0]
        exact add_le_add (mul_le_mul_of_nonneg_left ha h0) hb
    _ = B / (1 - m) := by field_simp; ring

/-- **C120 (momentum).**  If a linear quantity of all gradients the K-FAC optimiser gets is at
most `B`, its accumulator changes the quantity by at most `lr * B` a step; the cold optimiser,
whose learning rate has no factor `1 - momentum`, by at most `lr * B / (1 - momentum)`: ten
times as much for ACKTR. -/
theorem C120_momentum (w : E) (q : Q) (xs : List (Input E M)) (h0 : 0 ≤ c.momentum)
    (h1 : c.momentum < 1) (phi : E →ₗ[ℝ] ℝ) (B : ℝ)
    (hg : ∀ x ∈ xs, |phi x.grad| ≤ B) (hp : ∀ x ∈ xs, ∀ e, |phi (pre e x.lr x.grad)| ≤ B)
    (hcl : ∀ x ∈ xs, |phi (clip x.grad)| ≤ B) (hB : 0 ≤ B) (lr : ℝ) (hlr : 0 ≤ lr) :
    |phi ((lr * (1 - c.momentum)) • (run c clip eigh pre (start w q) xs).acc)| ≤ lr * B ∧
    |phi (lr • (run c clip eigh pre (start w q) xs).accCold)| ≤ lr * B / (1 - c.momentum) := by
  have hp1 : 0 < 1 - c.momentum := by linarith
  have key : |phi (run c clip eigh pre (start w q) xs).acc| ≤ B / (1 - c.momentum) ∧
      |phi (run c clip eigh pre (start w q) xs).accCold| ≤ B / (1 - c.momentum) := by
    induction xs using List.reverseRecOn with
    | nil => simp [run, start]; positivity
    | append_singleton xs x ih =>
        obtain ⟨i1, i2⟩ := ih (fun y hy => hg y (by simp [hy])) (fun y hy => hp y (by simp [hy]))
          (fun y hy => hcl y (by simp [hy]))
        rw [run_snoc]
        obtain ⟨s1, s2⟩ := step_acc (c := c) (clip := clip) (eigh := eigh) (pre := pre) x
          (run c clip eigh pre (start w q) xs)
        constructor
        · rcases s1 with s1 | ⟨u, hu, s1⟩
          · rw [s1]; exact i1
          · rw [s1, map_add, map_smul, smul_eq_mul]
            refine mom_bound h0 h1 i1 ?_
            rcases hu with rfl | ⟨e, rfl⟩
            · exact hg x (by simp)
            · exact hp x (by simp) e
        · rcases s2 with s2 | s2
          · rw [s2]; exact i2
          · rw [s2, map_add, map_smul, smul_eq_mul]
            exact mom_bound h0 h1 i2 (hcl x (by simp))
  obtain ⟨k1, k2⟩ := key
  rw [map_smul, map_smul, smul_eq_mul, smul_eq_mul, abs_mul (lr * _), abs_mul lr (phi _),
    abs_of_nonneg (mul_nonneg hlr hp1.le), abs_of_nonneg hlr]
  constructor
  · calc _ ≤ lr * (1 - c.momentum) * (B / (1 - c.momentum)) :=
          mul_le_mul_of_nonneg_left k1 (mul_nonneg hlr hp1.le)
      _ = lr * B := by field_simp
  · rw [mul_div_assoc]
    exact mul_le_mul_of_nonneg_left k2 hlr

end run

/-- **C120 (clipping in the cold phase).**  The clipped gradient has the direction of the
gradient, a norm of at most `max_grad_norm`, and is the gradient itself when that is short
enough. -/
theorem C120_clip {n : ℕ} {mx : ℝ} (hm : 0 < mx) (g : Fin n → ℝ) :
    Real.sqrt (∑ i, clipNorm mx g i * clipNorm mx g i) =
        min (Real.sqrt (∑ i, g i * g i)) mx ∧
    (∃ s : ℝ, 0 < s ∧ s ≤ 1 ∧ clipNorm mx g = s • g) ∧
    (Real.sqrt (∑ i, g i * g i) ≤ mx → clipNorm mx g = g) := by
  have hr : 0 ≤ Real.sqrt (∑ i, g i * g i) := Real.sqrt_nonneg _
  have hmax : 0 < max (Real.sqrt (∑ i, g i * g i)) mx := lt_of_lt_of_le hm (le_max_right _ _)
  refine ⟨?_, ⟨mx / max (Real.sqrt (∑ i, g i * g i)) mx, by positivity,
    (div_le_one hmax).2 (le_max_right _ _), rfl⟩, ?_⟩
  · have : ∑ i, clipNorm mx g i * clipNorm mx g i =
        (mx / max (Real.sqrt (∑ i, g i * g i)) mx) ^ 2 * ∑ i, g i * g i := by
      rw [Finset.mul_sum]
      refine Finset.sum_congr rfl fun i _ => ?_
      simp only [clipNorm, Pi.smul_apply, smul_eq_mul]; ring
    rw [this, Real.sqrt_mul (by positivity), Real.sqrt_sq (by positivity)]
    rcases le_total (Real.sqrt (∑ i, g i * g i)) mx with h | h
    · rw [max_eq_right h, min_eq_left h, div_self hm.ne', one_mul]
    · rw [max_eq_left h, min_eq_right h, div_mul_cancel₀]
      exact (lt_of_lt_of_le hm h).ne'
  · intro h
    simp only [clipNorm]
    rw [max_eq_right h, div_self hm.ne', one_smul]

/-! ## Examples -/

/-- A layer with one input, one output and a bias, and a variable without statistics. -/
noncomputable def exBlocks : List Block :=
  [.dense 1 1 !![3] ![1] 1 ![2, 1 / 2] 1 ![4] 0, .plain 2 ![1, -1]]

/-- The hypotheses of the trust region hold for it, with both kinds of damping. -/
example : ∀ b ∈ exBlocks, b.Good false (1 / 100) := by
  intro b hb
  simp only [exBlocks, List.mem_cons, List.not_mem_nil, or_false] at hb
  rcases hb with rfl | rfl
  · exact ⟨by simp, by simp, by norm_num, fun h => by cases h⟩
  · trivial

example : ∀ b ∈ exBlocks, b.Good true (1 / 100) := by
  intro b hb
  simp only [exBlocks, List.mem_cons, List.not_mem_nil, or_false] at hb
  rcases hb with rfl | rfl
  · refine ⟨by simp, by simp, by norm_num, fun _ => ?_⟩
    constructor <;> norm_num [Factor, Matrix.trace, Fin.sum_univ_succ]
  · trivial

/-- The update of the layer: `3 / (2 * 4 + 1/100)` and `1 / (1/2 * 4 + 1/100)`. -/
example : precond false (1 / 100) 1 ![2, 1 / 2] 1 ![4] (stack !![3] ![1]) =
    !![300 / 801; 100 / 201] := by
  ext i j
  fin_cases i <;> fin_cases j <;>
    norm_num [precond, stack, coeff, clipout, Fin.snoc]

/-- Steps for the theorems on runs: scalars for the parameters and the statistics. -/
noncomputable def exInput (k : ℕ) : Input ℝ ℝ := ⟨k, 1, 1 / 4, false⟩

/-- ACKTR's settings. -/
noncomputable def exCfg : Cfg := ⟨10, 1, 99 / 100, 9 / 10⟩

/-- The eleventh step is taken by both optimisers. -/
example (eigh : ℝ → ℝ) (pre : ℝ → ℝ → ℝ → ℝ) :
    ((List.range 10).map exInput).length = exCfg.cold ∧ 0 < exCfg.cold := by
  simp [exCfg]

/-- With `kfac_update = 100` the steps from 12 to 98 take the bare gradient. -/
example : (⟨10, 100, 99 / 100, 9 / 10⟩ : Cfg).cold < ((List.range 12).map exInput).length ∧
    ((List.range 12).map exInput).length + 1 < (⟨10, 100, 99 / 100, 9 / 10⟩ : Cfg).kfacUpdate := by
  simp

/-- With `cold_iter = 4` and `kfac_update = 3` the factors after eight steps are those of the
sixth. -/
example (eigh : ℝ → ℝ) (pre : ℝ → ℝ → ℝ → ℝ) :
    (run ⟨4, 3, 1 / 2, 1 / 2⟩ id eigh pre (start 0 0) ((List.range 8).map exInput)).eig =
      eigh (run ⟨4, 3, 1 / 2, 1 / 2⟩ id eigh pre (start 0 0)
        (((List.range 8).map exInput).take 6)).stats := by
  refine C120_factors (c := ⟨4, 3, 1 / 2, 1 / 2⟩) 0 0 _ 6 (by norm_num) ⟨2, rfl⟩ (by norm_num)
    (by simp) ?_
  intro k h1 h2 h3
  simp at h2
  change 3 ∣ k at h3
  omega

end Neorl.Kfac
