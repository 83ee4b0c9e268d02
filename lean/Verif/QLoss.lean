import Mathlib.Analysis.SpecialFunctions.Log.Basic
import Mathlib.MeasureTheory.Measure.Lebesgue.Basic
import Mathlib.Algebra.BigOperators.Fin
import Mathlib.Algebra.BigOperators.Field
import Mathlib.Data.List.MinMax

/-!
# Actions, targets and loss of DQN

Model of `neorl/rl/baselines/deepq/build_graph.py` (`build_act`, the adaptation in `build_act_with_param_noise`, the loss of `build_train`), of `huber_loss`
(`neorl/rl/baselines/shared/tf_util.py` lines 75-87), of the dueling head (`neorl/rl/baselines/deepq/policies.py` lines 119-130) and of the noise threshold
(`neorl/rl/baselines/deepq/dqn.py` lines 206-208), over the real numbers.  There are `m` actions; the outputs of the networks are parameters.  `tf.random_uniform` is uniform on
`[0, 1)` and on the actions.  Not modelled: whether the action of a call still sees the old `eps` (the order of output and update within a session run), optimiser and gradient clipping.
-/

set_option linter.unusedSectionVars false
set_option linter.unusedVariables false

namespace Neorl.QLoss

open Real

variable {m n : ℕ}

/-- `tf.argmax`: the first index of the greatest entry. -/
noncomputable def argmax (q : Fin m → ℝ) : Option (Fin m) := (List.finRange m).argmax q

/-! ### Actions -/

/-- One entry of `output_actions`, build_graph.py lines 143-151: `u` and `k` are the uniform draws. -/
noncomputable def act (stochastic : Bool) (eps : ℝ) (q : Fin m → ℝ) (u : ℝ) (k : Fin m) : Option (Fin m) :=
  if stochastic then (if u < eps then some k else argmax q) else argmax q

/-- `update_eps_expr`, line 152. -/
noncomputable def updateEps (eps upd : ℝ) : ℝ := if 0 ≤ upd then upd else eps

/-- The probability of an action under the draws: `u` uniform on `[0, 1)`, `k` uniform on the actions. -/
noncomputable def actProb (stochastic : Bool) (eps : ℝ) (q : Fin m → ℝ) (a : Fin m) : ℝ :=
  (∑ k, (MeasureTheory.volume {u : ℝ | u ∈ Set.Ico 0 1 ∧ act stochastic eps q u k = some a}).toReal) / m

/-- The threshold of the parameter noise, dqn.py lines 206-208. -/
noncomputable def threshold (eps : ℝ) (m : ℕ) : ℝ := -log (1 - eps + eps / m)

/-- `update_scale`, build_graph.py lines 243-254. -/
noncomputable def updateScale (scale meanKl thr : ℝ) : ℝ := if meanKl < thr then scale * 1.01 else scale / 1.01

/-- `update_param_noise_thres_expr`, lines 257-259. -/
noncomputable def updateThr (thr upd : ℝ) : ℝ := if 0 ≤ upd then upd else thr

/-! ### Loss -/

/-- `tf.one_hot`. -/
noncomputable def oneHot (a : Option (Fin m)) (i : Fin m) : ℝ := if a = some i then 1 else 0

/-- `q_tp1_best`, lines 400-404. -/
noncomputable def qBest (doubleQ : Bool) (qTarget qOnline : Fin m → ℝ) : ℝ :=
  if doubleQ then ∑ i, qTarget i * oneHot (argmax qOnline) i else ⨆ i, qTarget i

/-- `q_t_selected_target`, lines 405-408; `done` is 0 or 1. -/
noncomputable def target (doubleQ : Bool) (gamma rew done : ℝ) (qTarget qOnline : Fin m → ℝ) : ℝ := rew + gamma * ((1 - done) * qBest doubleQ qTarget qOnline)

/-- `td_error`, line 411, with `q_t_selected` of line 397. -/
noncomputable def tdError (q : Fin m → ℝ) (a : Fin m) (tgt : ℝ) : ℝ := (∑ i, q i * oneHot (some a) i) - tgt

/-- `huber_loss`, tf_util.py lines 83-87. -/
noncomputable def huber (delta x : ℝ) : ℝ := if |x| < delta then x ^ 2 * 0.5 else delta * (|x| - 0.5 * delta)

/-- `weighted_error`, lines 412-413, for a batch of `n`. -/
noncomputable def weightedError (w td : Fin n → ℝ) : ℝ := (∑ i, w i * huber 1 (td i)) / n

/-- `q_out` of the dueling head, policies.py lines 128-130. -/
noncomputable def dueling (v : ℝ) (adv : Fin m → ℝ) (i : Fin m) : ℝ := v + (adv i - (∑ j, adv j) / m)

end Neorl.QLoss
