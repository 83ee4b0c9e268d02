import Mathlib.Data.Real.Basic
import Mathlib.Analysis.Real.Sqrt
import Mathlib.Data.Matrix.Basic
import Mathlib.LinearAlgebra.Matrix.Trace
import Mathlib.LinearAlgebra.Matrix.NonsingularInverse
import Mathlib.Algebra.BigOperators.Fin
import Mathlib.Algebra.BigOperators.Field
import Mathlib.Algebra.Module.BigOperators
import Mathlib.Data.Fin.Tuple.Basic
import Mathlib.Tactic.Linarith
import Mathlib.Tactic.Positivity
import Mathlib.Tactic.Ring
import Mathlib.Tactic.FieldSimp
import Mathlib.Tactic.Module

/-!
# The Kronecker-factored optimiser of ACKTR

`neorl/rl/baselines/acktr/kfac.py` (`KfacOptimizer`) and `kfac_utils.py`, as ACKTR builds them
(`acktr/acktr.py` 204-213): synchronous, without full initialisation of the statistics, with one
forward and one backward factor for each dense layer and the bias of the layer as the last row
of its weight matrix.

Real numbers take the place of 32 bit floats.  The eigenvalue decomposition is a parameter.
Convolutions, the channel factorisation, the asynchronous queues and the search of the graph
for the factors are not modelled.

A training step of TensorFlow runs the whole K-FAC operation at every step, in the cold phase
as well: `kfac_optim_op` is made outside of the branches of `tf.cond` (kfac.py 994-999), and an
operation made outside runs whichever branch is taken.  The read of `sgd_step` in the K-FAC
operation is not ordered with respect to the increment in the cold branch; an oracle decides it.
-/

set_option linter.unusedSectionVars false
set_option linter.unusedVariables false

namespace Neorl.Kfac

open Matrix
/-! ## Statistics -/

/-- `tf.concat([fprop_factor, tf.ones([batch, 1])], 1)`: a column of ones for the bias.
kfac.py 436-439. -/
def homog {B m : ℕ} (F : Matrix (Fin B) (Fin m) ℝ) : Matrix (Fin B) (Fin (m + 1)) ℝ :=
  Matrix.of fun k i => (Fin.snoc (F k) 1 : Fin (m + 1) → ℝ) i

/-- `cov = tf.matmul(fprop_factor, fprop_factor, transpose_a=True) / batch_size`.
kfac.py 443-444. -/
noncomputable def covA {B m : ℕ} (F : Matrix (Fin B) (Fin m) ℝ) : Matrix (Fin m) (Fin m) ℝ :=
  (1 / (B : ℝ)) • (Fᵀ * F)

/-- `bprop_factor *= batch_size; cov_b = matmul(bprop_factor, bprop_factor) / batch_size`.
kfac.py 476-480. -/
noncomputable def covG {B n : ℕ} (D : Matrix (Fin B) (Fin n) ℝ) : Matrix (Fin n) (Fin n) ℝ :=
  (1 / (B : ℝ)) • ((((B : ℝ) • D)ᵀ) * ((B : ℝ) • D))

/-! ## The preconditioned gradient -/

/-- `clipout_neg`: `mask = vec > threshold; mask * vec`, `threshold = 1e-6`.
kfac_utils.py 65-75. -/
noncomputable def clipout (x : ℝ) : ℝ := if 1 / 1000000 < x then x else 0

/-- The mean of the absolute (clipped) eigenvalues, `tf.reduce_mean(tf.abs(e))`.
kfac.py 764-765. -/
noncomputable def tnorm {m : ℕ} (e : Fin m → ℝ) : ℝ := (∑ i, |clipout (e i)|) / m

/-- `coeffs`: the eigenvalues of the damped Fisher block.  Plain damping: the product of the
eigenvalues plus `epsilon + weight_decay` (kfac.py 780-785).  Factored damping: the product of
`eigen_val + adjustment * damping` with `damping = (epsilon + weight_decay) ** (1/2)` and
`adjustment = sqrt(own trace / other trace)` (kfac.py 752-779).  Two factors. -/
noncomputable def coeff {m n : ℕ} (factored : Bool) (lam : ℝ) (eA : Fin m → ℝ) (eG : Fin n → ℝ)
    (i : Fin m) (j : Fin n) : ℝ :=
  if factored then
    (clipout (eA i) + Real.sqrt (tnorm eA / tnorm eG) * Real.sqrt lam) *
      (clipout (eG j) + Real.sqrt (tnorm eG / tnorm eA) * Real.sqrt lam)
  else clipout (eA i) * clipout (eG j) + lam

/-- The update of one matrix of gradients: project on the eigenvectors, divide by the
coefficients, project back.  kfac.py 721-797. -/
noncomputable def precond {m n : ℕ} (factored : Bool) (lam : ℝ)
    (QA : Matrix (Fin m) (Fin m) ℝ) (eA : Fin m → ℝ)
    (QG : Matrix (Fin n) (Fin n) ℝ) (eG : Fin n → ℝ) (V : Matrix (Fin m) (Fin n) ℝ) :
    Matrix (Fin m) (Fin n) ℝ :=
  QA * (Matrix.of fun i j => (QAᵀ * V * QG) i j / coeff factored lam eA eG i j) * QGᵀ

/-- A variable of the model: a dense layer with its bias, the gradients of both and the
eigenvalue decompositions of its two factors; or a variable without statistics.
kfac.py 684-690. -/
inductive Block where
  | dense (m n : ℕ) (G : Matrix (Fin m) (Fin n) ℝ) (b : Fin n → ℝ)
      (QA : Matrix (Fin (m + 1)) (Fin (m + 1)) ℝ) (eA : Fin (m + 1) → ℝ)
      (QG : Matrix (Fin n) (Fin n) ℝ) (eG : Fin n → ℝ) (wd : ℝ)
  | plain (n : ℕ) (g : Fin n → ℝ)

/-- `tf.concat([grad, tf.expand_dims(grad_dict[var_assn_bias], 0)], 0)`: the gradient of the
bias as the last row.  kfac.py 712-719. -/
def stack {m n : ℕ} (G : Matrix (Fin m) (Fin n) ℝ) (b : Fin n → ℝ) :
    Matrix (Fin (m + 1)) (Fin n) ℝ :=
  Matrix.of (Fin.snoc (α := fun _ => Fin n → ℝ) (fun i => G i) b)

/-- The rows but the last, `grad_assn_weights`.  kfac.py 808-810. -/
def unstackW {m n : ℕ} (U : Matrix (Fin (m + 1)) (Fin n) ℝ) : Matrix (Fin m) (Fin n) ℝ :=
  Matrix.of fun i j => U i.castSucc j

/-- The last row, `grad_assn_bias`.  kfac.py 804-807. -/
def unstackB {m n : ℕ} (U : Matrix (Fin (m + 1)) (Fin n) ℝ) : Fin n → ℝ :=
  fun j => U (Fin.last m) j

/-- The new gradients of a block, before the rescaling.  kfac.py 684-817. -/
noncomputable def Block.update (factored : Bool) (eps : ℝ) : Block → Block
  | .dense m n G b QA eA QG eG wd =>
      let U := precond factored (eps + wd) QA eA QG eG (stack G b)
      .dense m n (unstackW U) (unstackB U) QA eA QG eG wd
  | .plain n g => .plain n g

/-- `tf.reduce_sum(grad * grad_1)` over the variables of two blocks of one shape.
kfac.py 823-829. -/
noncomputable def dot : Block → Block → ℝ
  | .dense m n G b .., .dense m' n' G' b' .. =>
      if h : m = m' ∧ n = n' then
        (∑ i, ∑ j, G i j * G' (Fin.cast h.1 i) (Fin.cast h.2 j)) + ∑ j, b j * b' (Fin.cast h.2 j)
      else 0
  | .plain n g, .plain n' g' =>
      if h : n = n' then ∑ j, g j * g' (Fin.cast h j) else 0
  | _, _ => 0

/-- `v_g`: the sum over all variables of `grad * grad_1 * lr * lr`.  kfac.py 820-829. -/
noncomputable def vg (factored : Bool) (eps lr : ℝ) (bs : List Block) : ℝ :=
  (bs.map fun b => dot (b.update factored eps) b * (lr * lr)).sum

/-- `scaling = tf.minimum(1., tf.sqrt(clip_kl / v_g))`; the division by zero of floats gives
infinity and the minimum 1.  kfac.py 835. -/
noncomputable def scaling (clip v : ℝ) : ℝ :=
  if v = 0 then 1 else min 1 (Real.sqrt (clip / v))

/-- `scaling * item`.  kfac.py 839-842. -/
def Block.scale (s : ℝ) : Block → Block
  | .dense m n G b QA eA QG eG wd => .dense m n (s • G) (s • b) QA eA QG eG wd
  | .plain n g => .plain n (s • g)

/-- `get_kfac_precond_updates`.  kfac.py 667-844. -/
noncomputable def updates (factored : Bool) (eps lr clip : ℝ) (bs : List Block) : List Block :=
  let s := scaling clip (vg factored eps lr bs)
  bs.map fun b => (b.update factored eps).scale s

/-! ## The training step -/

/-- The settings ACKTR gives to the optimiser; `stats_accum_iter` is `cold_iter` because
`full_stats_init` is false.  kfac.py 44-72. -/
structure Cfg where
  cold : ℕ
  kfacUpdate : ℕ
  decay : ℝ
  momentum : ℝ

/-- What one training step gets: the gradients, the new covariances, the learning rate, and
whether the read of `sgd_step` in the K-FAC operation comes after the increment of the cold
branch. -/
structure Input (E M : Type) where
  grad : E
  cov : M
  lr : ℝ
  late : Bool

/-- The variables of the optimiser and the parameters of the model; `acc` and `accCold` are the
accumulators of the two momentum optimisers.  kfac.py 74-84, 943-944, 973. -/
structure St (E M Q : Type) where
  w : E
  acc : E
  accCold : E
  stats : M
  eig : Q
  sgdStep : ℕ
  statsStep : ℕ
  factorStep : ℕ
  coldStep : ℕ
  globalStep : ℕ

section step
variable {E M Q : Type} [AddCommGroup E] [Module ℝ E] [AddCommGroup M] [Module ℝ M]

/-- `_apply_stats` behind `tf.cond(stats_step >= stats_accum_iter, ...)`: the sum with
coefficient `1 / stats_accum_iter` first, then the running average.  kfac.py 502-553. -/
noncomputable def applyStats (c : Cfg) (k : ℕ) (S new : M) : M :=
  if c.cold ≤ k then c.decay • S + (1 - c.decay) • new
  else S + (1 / (c.cold : ℝ)) • new

/-- The statistics and the factors: `global_step`, `_update_stats_op`, and the factors when
`stats_step % kfac_update == 0` and `stats_step >= stats_accum_iter`.  kfac.py 896-931. -/
noncomputable def statsPhase (c : Cfg) (eigh : M → Q) (x : Input E M) (s : St E M Q) :
    St E M Q :=
  let S := applyStats c s.statsStep s.stats x.cov
  let k := s.statsStep + 1
  if k % c.kfacUpdate = 0 ∧ c.cold ≤ k then
    { s with stats := S, statsStep := k, globalStep := s.globalStep + 1, eig := eigh S,
             factorStep := s.factorStep + 1 }
  else
    { s with stats := S, statsStep := k, globalStep := s.globalStep + 1,
             coldStep := s.coldStep + 1 }

/-- `optim_op`: the momentum optimiser with learning rate `lr * (1 - momentum)`, behind
`sgd_step >= cold_iter`; the gradient is the preconditioned one as soon as there are factors.
kfac.py 933-962. -/
noncomputable def kfacPhase (c : Cfg) (pre : Q → ℝ → E → E) (x : Input E M) (seen : ℕ)
    (s : St E M Q) : St E M Q :=
  let u := if 0 < s.factorStep then pre s.eig x.lr x.grad else x.grad
  if c.cold ≤ seen then
    let a := c.momentum • s.acc + u
    { s with acc := a, w := s.w - (x.lr * (1 - c.momentum)) • a }
  else s

/-- `_cold_sgd_start`: clip by the global norm, count, momentum optimiser with the learning
rate.  kfac.py 973-989. -/
noncomputable def coldPhase (c : Cfg) (clip : E → E) (x : Input E M) (s : St E M Q) : St E M Q :=
  let a := c.momentum • s.accCold + clip x.grad
  { s with accCold := a, w := s.w - x.lr • a, sgdStep := s.sgdStep + 1 }

/-- One run of the training operation of `apply_gradients`.  kfac.py 966-999. -/
noncomputable def step (c : Cfg) (clip : E → E) (eigh : M → Q) (pre : Q → ℝ → E → E)
    (s : St E M Q) (x : Input E M) : St E M Q :=
  let isCold := s.sgdStep ≤ c.cold
  let seen := if isCold ∧ x.late = true then s.sgdStep + 1 else s.sgdStep
  let s₁ := kfacPhase c pre x seen (statsPhase c eigh x s)
  if isCold then coldPhase c clip x s₁ else s₁

/-- The training steps one after the other. -/
noncomputable def run (c : Cfg) (clip : E → E) (eigh : M → Q) (pre : Q → ℝ → E → E)
    (s : St E M Q) (xs : List (Input E M)) : St E M Q :=
  xs.foldl (step c clip eigh pre) s

/-- The variables at the start: zero statistics (`_diag_init_coeff = 0.`), counters zero.
kfac.py 69, 74-84, 297-300. -/
def start (w : E) (q : Q) : St E M Q :=
  { w := w, acc := 0, accCold := 0, stats := 0, eig := q, sgdStep := 0, statsStep := 0,
    factorStep := 0, coldStep := 0, globalStep := 0 }

end step

/-- `tf.clip_by_global_norm(grads, max_norm)`: multiply by `max_norm / max(norm, max_norm)`
when the norm is larger.  kfac.py 978-979. -/
noncomputable def clipNorm {n : ℕ} (maxNorm : ℝ) (g : Fin n → ℝ) : Fin n → ℝ :=
  let r := Real.sqrt (∑ i, g i * g i)
  (maxNorm / max r maxNorm) • g

/-! ## Lemmas on matrices -/

section lemmas
variable {m n : ℕ}

/-- The sum of the products of the entries. -/
noncomputable def inner (U V : Matrix (Fin m) (Fin n) ℝ) : ℝ := ∑ i, ∑ j, U i j * V i j

theorem inner_trace (U V : Matrix (Fin m) (Fin n) ℝ) : inner U V = (Uᵀ * V).trace := by
  simp only [inner, Matrix.trace, Matrix.diag_apply, Matrix.mul_apply, Matrix.transpose_apply]
  exact Finset.sum_comm

theorem inner_conj (Q : Matrix (Fin m) (Fin m) ℝ) (R : Matrix (Fin n) (Fin n) ℝ)
    (X V : Matrix (Fin m) (Fin n) ℝ) :
    inner (Q * X * Rᵀ) V = inner X (Qᵀ * V * R) := by
  rw [inner_trace, inner_trace]
  simp only [Matrix.transpose_mul, Matrix.transpose_transpose]
  rw [Matrix.mul_assoc, Matrix.trace_mul_comm R]
  simp only [Matrix.mul_assoc]

theorem clipout_nonneg (x : ℝ) : 0 ≤ clipout x := by
  unfold clipout; split
  · rename_i h; exact le_of_lt (lt_trans (by norm_num) h)
  · exact le_refl _

theorem tnorm_nonneg (e : Fin m → ℝ) : 0 ≤ tnorm e := by
  unfold tnorm; positivity

theorem coeff_pos {lam : ℝ} (hl : 0 < lam) (eA : Fin m → ℝ) (eG : Fin n → ℝ) (f : Bool)
    (hf : f = true → 0 < tnorm eA ∧ 0 < tnorm eG) (i j) : 0 < coeff f lam eA eG i j := by
  unfold coeff
  split
  · rename_i h
    obtain ⟨h1, h2⟩ := hf h
    have a := clipout_nonneg (eA i)
    have b := clipout_nonneg (eG j)
    have c1 : 0 < Real.sqrt (tnorm eA / tnorm eG) * Real.sqrt lam :=
      mul_pos (Real.sqrt_pos.2 (by positivity)) (Real.sqrt_pos.2 hl)
    have c2 : 0 < Real.sqrt (tnorm eG / tnorm eA) * Real.sqrt lam :=
      mul_pos (Real.sqrt_pos.2 (by positivity)) (Real.sqrt_pos.2 hl)
    positivity
  · have a := clipout_nonneg (eA i)
    have b := clipout_nonneg (eG j)
    positivity

/-- The update in the coordinates of the eigenvectors. -/
theorem precond_coord {f : Bool} {lam : ℝ} {QA : Matrix (Fin m) (Fin m) ℝ}
    {QG : Matrix (Fin n) (Fin n) ℝ} (hA : QAᵀ * QA = 1) (hG : QGᵀ * QG = 1)
    (eA : Fin m → ℝ) (eG : Fin n → ℝ) (V : Matrix (Fin m) (Fin n) ℝ) :
    QAᵀ * precond f lam QA eA QG eG V * QG =
      Matrix.of fun i j => (QAᵀ * V * QG) i j / coeff f lam eA eG i j := by
  unfold precond
  generalize (Matrix.of fun i j => (QAᵀ * V * QG) i j / coeff f lam eA eG i j) = X
  calc QAᵀ * (QA * X * QGᵀ) * QG = (QAᵀ * QA) * X * (QGᵀ * QG) := by
        simp only [Matrix.mul_assoc]
    _ = X := by rw [hA, hG, Matrix.one_mul, Matrix.mul_one]

theorem conj_inj {QA : Matrix (Fin m) (Fin m) ℝ} {QG : Matrix (Fin n) (Fin n) ℝ}
    (hA : QA * QAᵀ = 1) (hG : QG * QGᵀ = 1) {X Y : Matrix (Fin m) (Fin n) ℝ}
    (h : QAᵀ * X * QG = QAᵀ * Y * QG) : X = Y := by
  have : QA * (QAᵀ * X * QG) * QGᵀ = QA * (QAᵀ * Y * QG) * QGᵀ := by rw [h]
  have e : ∀ Z : Matrix (Fin m) (Fin n) ℝ, QA * (QAᵀ * Z * QG) * QGᵀ = Z := by
    intro Z
    calc QA * (QAᵀ * Z * QG) * QGᵀ = (QA * QAᵀ) * Z * (QG * QGᵀ) := by
          simp only [Matrix.mul_assoc]
      _ = Z := by rw [hA, hG, Matrix.one_mul, Matrix.mul_one]
  rwa [e, e] at this

theorem conj_spec {QA : Matrix (Fin m) (Fin m) ℝ} {QG : Matrix (Fin n) (Fin n) ℝ}
    (hA : QAᵀ * QA = 1) (hG : QGᵀ * QG = 1) (a : Fin m → ℝ) (g : Fin n → ℝ)
    (U : Matrix (Fin m) (Fin n) ℝ) :
    QAᵀ * ((QA * diagonal a * QAᵀ) * U * (QG * diagonal g * QGᵀ)) * QG =
      Matrix.of fun i j => a i * g j * (QAᵀ * U * QG) i j := by
  have : QAᵀ * ((QA * diagonal a * QAᵀ) * U * (QG * diagonal g * QGᵀ)) * QG =
      (QAᵀ * QA) * (diagonal a * (QAᵀ * U * QG) * diagonal g) * (QGᵀ * QG) := by
    simp only [Matrix.mul_assoc]
  rw [this, hA, hG, Matrix.one_mul, Matrix.mul_one]
  ext i j
  rw [Matrix.mul_diagonal, Matrix.diagonal_mul]
  simp only [Matrix.of_apply]
  ring

theorem stack_unstack (U : Matrix (Fin (m + 1)) (Fin n) ℝ) :
    stack (unstackW U) (unstackB U) = U := by
  ext i j
  refine Fin.lastCases ?_ (fun i => ?_) i
  · simp [stack, unstackB]
  · simp [stack, unstackW]

theorem inner_stack (G G' : Matrix (Fin m) (Fin n) ℝ) (b b' : Fin n → ℝ) :
    inner (stack G b) (stack G' b') = inner G G' + ∑ j, b j * b' j := by
  unfold inner
  rw [Fin.sum_univ_castSucc]
  simp [stack]

theorem dot_dense (G G' : Matrix (Fin m) (Fin n) ℝ) (b b' : Fin n → ℝ)
    (QA QA' eA eA' QG QG' eG eG' wd wd') :
    dot (.dense m n G b QA eA QG eG wd) (.dense m n G' b' QA' eA' QG' eG' wd') =
      inner (stack G b) (stack G' b') := by
  rw [inner_stack]
  simp [dot, inner]

end lemmas

end Neorl.Kfac
