import Mathlib.Analysis.SpecialFunctions.Exp
import Mathlib.Analysis.SpecialFunctions.Log.Basic
import Mathlib.Analysis.SpecialFunctions.ExpDeriv
import Mathlib.Algebra.BigOperators.Fin
import Mathlib.Analysis.Real.Sqrt

/-!
# The loss of PPO2

Model of the loss of `neorl/rl/baselines/ppo2/ppo2.py` lines 146-187 and of the advantages given to it (lines 264-265), over the real numbers.  A minibatch has `n` samples;
the negative log probabilities, values and the entropy computed by the network are parameters.
-/

set_option linter.unusedSectionVars false
set_option linter.unusedVariables false

namespace Neorl.PPOLoss

open Real

variable {n : ℕ}

/-- `tf.clip_by_value`: `maximum(minimum(t, max), min)`. -/
noncomputable def clipBy (x lo hi : ℝ) : ℝ := max (min x hi) lo

/-- `tf.reduce_mean`. -/
noncomputable def mean (f : Fin n → ℝ) : ℝ := (∑ i, f i) / n

/-- `ratio`, line 179. -/
noncomputable def ratio (oldNlp nlp : ℝ) : ℝ := exp (oldNlp - nlp)

/-- One entry of `tf.maximum(pg_losses, pg_losses2)`, lines 180-183. -/
noncomputable def pgSample (eps adv oldNlp nlp : ℝ) : ℝ :=
  max (-adv * ratio oldNlp nlp) (-adv * clipBy (ratio oldNlp nlp) (1 - eps) (1 + eps))

/-- `self.pg_loss`, line 183. -/
noncomputable def pgLoss (eps : ℝ) (adv oldNlp nlp : Fin n → ℝ) : ℝ := mean fun i => pgSample eps (adv i) (oldNlp i) (nlp i)

/-- Which range the value function gets, lines 152-163: `cliprange_vf` is `None` after the constructor (line 56). -/
noncomputable def vfRange (cliprangeVf : Option ℝ) (cliprange : ℝ) : Option ℝ :=
  match cliprangeVf with
  | none => some cliprange
  | some c => if c < 0 then none else some c

/-- `vpred_clipped`, lines 165-173. -/
noncomputable def vpredClipped (c : Option ℝ) (old v : ℝ) : ℝ :=
  match c with
  | none => v
  | some c => old + clipBy (v - old) (-c) c

/-- One entry of `tf.maximum(vf_losses1, vf_losses2)`, lines 175-177. -/
noncomputable def vfSample (c : Option ℝ) (ret old v : ℝ) : ℝ := max ((v - ret) ^ 2) ((vpredClipped c old v - ret) ^ 2)

/-- `self.vf_loss`, line 177. -/
noncomputable def vfLoss (c : Option ℝ) (ret old v : Fin n → ℝ) : ℝ := 0.5 * mean fun i => vfSample c (ret i) (old i) (v i)

/-- `self.approxkl`, line 184. -/
noncomputable def approxkl (oldNlp nlp : Fin n → ℝ) : ℝ := 0.5 * mean fun i => (nlp i - oldNlp i) ^ 2

/-- `self.clipfrac`, lines 185-186. -/
noncomputable def clipfrac (eps : ℝ) (oldNlp nlp : Fin n → ℝ) : ℝ := mean fun i => if eps < |ratio (oldNlp i) (nlp i) - 1| then 1 else 0

/-- `loss`, line 187. -/
noncomputable def loss (pg ent vf entCoef vfCoef : ℝ) : ℝ := pg - ent * entCoef + vf * vfCoef

/-- `advs.std()`: the root of the mean squared deviation. -/
noncomputable def std (f : Fin n → ℝ) : ℝ := √(mean fun i => (f i - mean f) ^ 2)

/-- `advs`, lines 264-265. -/
noncomputable def advs (ret val : Fin n → ℝ) (i : Fin n) : ℝ :=
  (ret i - val i - mean fun j => ret j - val j) / (std (fun j => ret j - val j) + 1e-8)

end Neorl.PPOLoss
