import Mathlib.Analysis.SpecialFunctions.Log.Basic
import Mathlib.Algebra.BigOperators.Fin
import Mathlib.Algebra.BigOperators.Field

/-!
# The policy update of ACER

Model of parts of `neorl/rl/baselines/acer/acer_simple.py` for discrete actions: `get_by_index` (lines 33-46), `strip` (49-60) with `batch_to_seq` and `seq_to_batch` (`tf_util.py` lines
24-56), `EpisodeStats` (lines 96-152), the importance weights and the bias correction (lines 363-405), the policy gradient and the trust region step (lines 426-447).  The retrace targets are in
`Verif/Returns.lean`.  The outputs of the networks and the gradient of the loss are parameters; `eps` (1e-6), the correction term `c` (10) and `delta` (1) are kept as parameters.
-/

set_option linter.unusedSectionVars false
set_option linter.unusedVariables false

namespace Neorl.ACERLoss

/-! ### Indexing -/

/-- `get_by_index`, lines 33-46: `flat` is the flattened matrix with `cols` columns. -/
def getByIndex {α : Type} (cols : ℕ) (flat : ℕ → α) (idx : ℕ → ℕ) (i : ℕ) : α := flat (i * cols + idx i)

/-- `batch_to_seq` of a flat tensor: entry `e` of the `t`-th element of the sequence, after `reshape` to `n_batch` rows of `n_steps`. -/
def batchToSeq {α : Type} (nSteps : ℕ) (x : ℕ → α) (t e : ℕ) : α := x (e * nSteps + t)

/-- `seq_to_batch` of a sequence of `nSteps` tensors: stacked along axis 1 and flattened. -/
def seqToBatch {α : Type} (nSteps : ℕ) (s : ℕ → ℕ → α) (i : ℕ) : α := s (i % nSteps) (i / nSteps)

/-- `strip`, lines 49-60. -/
def strip {α : Type} (nSteps : ℕ) (x : ℕ → α) : ℕ → α := seqToBatch nSteps (batchToSeq (nSteps + 1) x)

/-! ### Episode statistics -/

section Stats
variable {K : Type} [Field K]

/-- `EpisodeStats`: rewards of the open episodes, `len_buffer`, `rewbuffer`. -/
structure Stats (K : Type) where
  cur : List (List K)
  lens : List ℕ
  rews : List K
deriving DecidableEq

/-- `__init__`, lines 97-109. -/
def Stats.init (nEnvs : ℕ) : Stats K := ⟨List.replicate nEnvs [], [], []⟩

/-- `deque(maxlen=40).append`. -/
def push {α : Type} (l : List α) (x : α) : List α := (l ++ [x]).drop (l.length + 1 - 40)

/-- The inner loop of `feed`, lines 121-128, for one environment: its open episode and the buffers. -/
def feedRow : List K → List ℕ → List K → List (K × Bool) → List K × List ℕ × List K
  | ep, ls, rs, [] => (ep, ls, rs)
  | ep, ls, rs, (r, m) :: row =>
    let ep := ep ++ [r]
    if m then feedRow [] (push ls ep.length) (push rs ep.sum) row else feedRow ep ls rs row

/-- The outer loop, line 120. -/
def feedRows : List (List K) → List ℕ → List K → List (List (K × Bool)) → Stats K
  | ep :: eps, ls, rs, row :: rows =>
    let (ep', ls', rs') := feedRow ep ls rs row
    let s := feedRows eps ls' rs' rows
    ⟨ep' :: s.cur, s.lens, s.rews⟩
  | eps, ls, rs, _ => ⟨eps, ls, rs⟩

/-- `feed`, lines 111-128: one row of `(reward, mask)` per environment. -/
def Stats.feed (s : Stats K) (rows : List (List (K × Bool))) : Stats K := feedRows s.cur s.lens s.rews rows

/-- `mean_length`, lines 130-139. -/
def Stats.meanLength (s : Stats K) : K := if s.lens = [] then 0 else (s.lens.map fun (n : ℕ) => (n : K)).sum / s.lens.length

/-- `mean_reward`, lines 141-150. -/
def Stats.meanReward (s : Stats K) : K := if s.rews.length = 0 then 0 else s.rews.sum / s.rews.length

end Stats

/-! ### Policy gradient -/

section Loss
open Real
variable {m : ℕ}

/-- `rho`, line 364. -/
noncomputable def rho (eps : ℝ) (f mu : Fin m → ℝ) (a : Fin m) : ℝ := f a / (mu a + eps)

/-- The factor of the taken action in `gain_f`, line 384: `tf.minimum(correction_term, rho_i)`. -/
noncomputable def truncated (eps c : ℝ) (f mu : Fin m → ℝ) (a : Fin m) : ℝ := min c (rho eps f mu a)

/-- The factor of each action in `gain_bc`, lines 398-402: `relu(1 - c / (rho + eps)) * f`. -/
noncomputable def correction (eps c : ℝ) (f mu : Fin m → ℝ) (a : Fin m) : ℝ := max (1 - c / (rho eps f mu a + eps)) 0 * f a

/-- What the two gains together weigh action `a` with, on average over the behaviour `mu`: the first gain is only there when `a` was taken. -/
noncomputable def weight (eps c : ℝ) (f mu : Fin m → ℝ) (a : Fin m) : ℝ := mu a * truncated eps c f mu a + correction eps c f mu a

/-- The objective of one step, lines 380-415 and 428: `-(loss_policy - ent_coef * entropy) * n_steps * n_envs` restricted to the terms of the step, as a function of the tensor `phi_i` (the probabilities) that
line 428 differentiates by.  The stopped gradients are the numbers `adv` (`qret - value`), `advBc` and the weights at the current probabilities `f`; `entropy` is computed from the logits
(distributions.py lines 316-321), of which `phi_i` is a function, so for `tf.gradients` with respect to `phi_i` it is a constant. -/
noncomputable def objective (eps c entCoef entropy : ℝ) (f mu : Fin m → ℝ) (a : Fin m) (adv : ℝ) (advBc phi : Fin m → ℝ) : ℝ :=
  log (phi a + eps) * (adv * truncated eps c f mu a) + ∑ b, log (phi b + eps) * (advBc b * correction eps c f mu b) + entCoef * entropy

/-- `kl_grad`, line 430. -/
noncomputable def klGrad (eps : ℝ) (polyak f : Fin m → ℝ) (a : Fin m) : ℝ := -polyak a / (f a + eps)

/-- `adj`, lines 432-433. -/
noncomputable def adj (eps delta : ℝ) (k g : Fin m → ℝ) : ℝ := max 0 ((∑ a, k a * g a - delta) / (∑ a, k a ^ 2 + eps))

/-- The adjusted gradient, line 441. -/
noncomputable def trust (eps delta : ℝ) (k g : Fin m → ℝ) (a : Fin m) : ℝ := g a - adj eps delta k g * k a

/-- `value`, line 321: the expectation of the Q values. -/
noncomputable def value (f q : Fin m → ℝ) : ℝ := ∑ a, f a * q a

end Loss

/-- `gradient_add`, tf_util.py lines 139-158. -/
def gradientAdd {K : Type} [Add K] : Option K → Option K → Option K
  | none, none => none
  | none, some g => some g
  | some g, none => some g
  | some g, some h => some (g + h)

end Neorl.ACERLoss
