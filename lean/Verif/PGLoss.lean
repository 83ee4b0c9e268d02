import Verif.Dist
import Verif.PPOLoss
import Verif.Schedule

/-!
# The losses and training steps of A2C and ACKTR

Model of `neorl/rl/baselines/a2c/a2c.py` lines 148-190, 218-222 and 259-281 and of `neorl/rl/baselines/acktr/acktr.py` lines 158-178 and 238-251, over the real numbers.  A batch has `n` samples.
The policy is the categorical or the diagonal Gaussian distribution of the module `Dist`; the outputs of the network (logits or Gaussian parameters, and values) are parameters.
`tf.gradients` is not modelled: the theorems compute the derivatives of the losses.  `tf.clip_by_global_norm` and `tf.train.RMSPropOptimizer` are the formulas of their documentation;
the optimiser of ACKTR is the module `Kfac`.
-/

set_option linter.unusedSectionVars false
set_option linter.unusedVariables false

namespace Neorl.PGLoss

open Real Neorl.PPOLoss Neorl.Schedule

variable {n m p : ℕ}

/-! ### Losses -/

/-- `self.pg_loss` of A2C (a2c.py line 157) and the first `pg_loss` of ACKTR (acktr.py line 167): `tf.reduce_mean(advs * neglogpac)`. -/
noncomputable def pg (advs nlp : Fin n → ℝ) : ℝ := mean fun i => advs i * nlp i

/-- `mse` of the values and the returns, tf_util.py line 126, used in a2c.py line 158 and acktr.py line 170. -/
noncomputable def mse (values rewards : Fin n → ℝ) : ℝ := mean fun i => (values i - rewards i) ^ 2

/-- `loss` of A2C, a2c.py line 162. -/
noncomputable def a2cLoss (entCoef vfCoef : ℝ) (advs rewards nlp ent values : Fin n → ℝ) : ℝ :=
  pg advs nlp - mean ent * entCoef + mse values rewards * vfCoef

/-- `pg_loss` of ACKTR after the entropy bonus, acktr.py line 169; this is what `_train_step` returns as the policy loss. -/
noncomputable def acktrPg (entCoef : ℝ) (advs nlp ent : Fin n → ℝ) : ℝ := pg advs nlp - entCoef * mean ent

/-- `train_loss` of ACKTR, acktr.py line 171. -/
noncomputable def acktrLoss (entCoef vfCoef : ℝ) (advs rewards nlp ent values : Fin n → ℝ) : ℝ :=
  acktrPg entCoef advs nlp ent + vfCoef * mse values rewards

/-- `pg_fisher_loss`, acktr.py line 174. -/
noncomputable def pgFisher (nlp : Fin n → ℝ) : ℝ := -mean nlp

/-- `vf_fisher_loss`, acktr.py lines 175-177: the sample (stopped gradient) is the value `v0` of the network plus a standard normal draw `g`. -/
noncomputable def vfFisher (coef : ℝ) (v0 g values : Fin n → ℝ) : ℝ := -coef * mean fun i => (values i - (v0 i + g i)) ^ 2

/-- `self.joint_fisher`, acktr.py line 178. -/
noncomputable def jointFisher (coef : ℝ) (nlp v0 g values : Fin n → ℝ) : ℝ := pgFisher nlp + vfFisher coef v0 g values

/-- `advs` of A2C, a2c.py line 218. -/
def a2cAdvs (rewards values : Fin n → ℝ) (i : Fin n) : ℝ := rewards i - values i

/-- `advs` of ACKTR, acktr.py lines 238-241: normalised (as in PPO2) for a `Box` action space only. -/
noncomputable def acktrAdvs (continuous : Bool) (rewards values : Fin n → ℝ) (i : Fin n) : ℝ :=
  if continuous then PPOLoss.advs rewards values i else rewards i - values i

/-! ### The loss as a function of the output of the network -/

/-- The A2C loss for a categorical policy with logits `l` and actions `a`. -/
noncomputable def catLoss (entCoef vfCoef : ℝ) (advs rewards : Fin n → ℝ) (a : Fin n → Fin m) (l : Fin n → Fin m → ℝ) (values : Fin n → ℝ) : ℝ :=
  a2cLoss entCoef vfCoef advs rewards (fun i => Dist.catNeglogp (l i) (a i : ℕ)) (fun i => Dist.catEntropy (l i)) values

/-- The A2C loss for a diagonal Gaussian policy with parameters `f` (means and log standard deviations) and actions `a`. -/
noncomputable def gaussLoss (entCoef vfCoef : ℝ) (advs rewards : Fin n → ℝ) (a : Fin n → Fin m → ℝ) (f : Fin n → Fin (m + m) → ℝ) (values : Fin n → ℝ) : ℝ :=
  a2cLoss entCoef vfCoef advs rewards (fun i => Dist.gaussNeglogp (f i) (a i)) (fun i => Dist.gaussEntropy (f i)) values

/-! ### The optimiser of A2C -/

/-- The norm of all gradients together. -/
noncomputable def globalNorm (g : Fin p → ℝ) : ℝ := √(∑ i, g i ^ 2)

/-- `tf.clip_by_global_norm`, a2c.py lines 171-172: every gradient times `clip_norm * minimum(1 / norm, 1 / clip_norm)`; skipped if `max_grad_norm` is `None`. -/
noncomputable def clipGrads (maxNorm : Option ℝ) (g : Fin p → ℝ) (i : Fin p) : ℝ :=
  match maxNorm with
  | none => g i
  | some c => g i * (c * min (1 / globalNorm g) (1 / c))

/-- The variables of the optimiser: parameters and the running mean squares (`rms` slots, all ones at the start). -/
structure Opt (p : ℕ) where
  par : Fin p → ℝ
  ms : Fin p → ℝ

/-- `RMSPropOptimizer.apply_gradients` without momentum (`self.momentum = 0.0`, line 78), lines 188-190: the mean squares first, then the step. -/
noncomputable def rmsStep (lr decay eps : ℝ) (g : Fin p → ℝ) (s : Opt p) : Opt p :=
  let ms := fun i => s.ms i + (g i ^ 2 - s.ms i) * (1 - decay)
  { par := fun i => s.par i - lr * g i / √(ms i + eps), ms := ms }

/-! ### Training -/

/-- Lines 219-222 of a2c.py (lines 243-251 of acktr.py): the scheduler is asked once per sample and the last answer is used; an empty batch fails the assertion. -/
noncomputable def rate (curve : ℝ → ℝ) : ℕ → Sched ℝ → Option ℝ → Py (ℝ × Sched ℝ)
  | 0, s, some r => .ok (r, s)
  | 0, _, none => .error .assertion
  | k + 1, s, _ => rate curve k (s.value curve).2 (some (s.value curve).1)

/-- One `_train_step` of A2C with a batch of `N` samples: `grad` maps the parameters to the gradients of the loss on the batch. -/
noncomputable def trainStep (curve : ℝ → ℝ) (N : ℕ) (maxNorm : Option ℝ) (decay eps : ℝ) (grad : (Fin p → ℝ) → Fin p → ℝ) (t : Sched ℝ × Opt p) : Py (Sched ℝ × Opt p) := do
  let r ← rate curve N t.1 none
  pure (r.2, rmsStep r.1 decay eps (clipGrads maxNorm (grad t.2.par)) t.2)

/-- The updates of `learn`, a2c.py lines 265-281: update `u = 0, 1, …` uses the batch (that is the gradient function) `grads u`; the callback may stop before an update. -/
noncomputable def loop (curve : ℝ → ℝ) (N : ℕ) (maxNorm : Option ℝ) (decay eps : ℝ) (grads : ℕ → (Fin p → ℝ) → Fin p → ℝ) (stop : ℕ → Bool) :
    ℕ → ℕ → Sched ℝ × Opt p → Py (Sched ℝ × Opt p)
  | 0, _, t => .ok t
  | k + 1, u, t =>
    if stop u then .ok t
    else match trainStep curve N maxNorm decay eps (grads u) t with
      | .error e => .error e
      | .ok t' => loop curve N maxNorm decay eps grads stop k (u + 1) t'

/-- `learn`, a2c.py lines 259-265: a new scheduler over `total_timesteps` values, `total_timesteps // n_batch` updates. -/
noncomputable def learn (curve : ℝ → ℝ) (lr : ℝ) (total N : ℕ) (maxNorm : Option ℝ) (decay eps : ℝ) (grads : ℕ → (Fin p → ℝ) → Fin p → ℝ) (stop : ℕ → Bool) (s : Opt p) :
    Py (Sched ℝ × Opt p) :=
  if N = 0 then .error .zeroDivision
  else loop curve N maxNorm decay eps grads stop (total / N) 0 ({ step := 0, initial := lr, n := total }, s)

end Neorl.PGLoss
