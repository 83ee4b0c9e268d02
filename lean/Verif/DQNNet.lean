import Verif.Py
import Verif.Best
import Verif.Dist
import Verif.QLoss
import Verif.ActProb

/-!
# The network of DQN and its predictions

Model of `FeedForwardPolicy` and the four policies of `neorl/rl/baselines/deepq/policies.py` (lines 91-152, 172-176, 196-200, 220-224, 244-248), of the checks of `DQNPolicy.__init__` (lines 26-36) and `_kwargs_check`
(`neorl/rl/baselines/shared/policies.py` lines 168-184), and of `predict` and `action_probability` of `neorl/rl/baselines/deepq/dqn.py` (lines 326-362), over the real numbers.

The network is the function it computes on one flattened observation, given the variables.  `fully_connected` and `layer_norm` of `tf.contrib.layers` are the formulas of their documentation (`layer_norm` adds `1e-12` to the variance).
The activation function and the features of the CNN are parameters.  A draw of `np.random.choice` is one uniform number in `[0, 1)`.  Arrays are lists of rows; the reshape of the actions given by the caller is already done.
-/

set_option linter.unusedSectionVars false
set_option linter.unusedVariables false

namespace Neorl.DQNNet

open Real Neorl.Dist Neorl.ActProb

/-! ### Layers -/

/-- The variables of one `fully_connected` and of the `layer_norm` after it. -/
structure Dense where
  w : ℕ → ℕ → ℝ
  b : ℕ → ℝ
  gamma : ℕ → ℝ
  beta : ℕ → ℝ

/-- The variables of the scopes `action_value` and `state_value`, by the order in which the layers are made. -/
structure Vars where
  action : ℕ → Dense
  value : ℕ → Dense

/-- One output of `fully_connected` with `activation_fn=None`. -/
def affine (d : Dense) (x : List ℝ) (j : ℕ) : ℝ := (x.zipIdx.map fun p => p.1 * d.w p.2 j).sum + d.b j

/-- `fully_connected(x, num_outputs=n, activation_fn=None)`, lines 112, 123. -/
def dense (d : Dense) (n : ℕ) (x : List ℝ) : List ℝ := (List.range n).map (affine d x)

/-- `tf.nn.moments`: the mean. -/
noncomputable def mean (x : List ℝ) : ℝ := x.sum / x.length

/-- `tf.nn.moments`: the variance. -/
noncomputable def variance (x : List ℝ) : ℝ := (x.map fun a => (a - mean x) ^ 2).sum / x.length

/-- `layer_norm(x, center=True, scale=True)`, lines 114, 125. -/
noncomputable def layerNorm (d : Dense) (x : List ℝ) : List ℝ :=
  x.zipIdx.map fun p => (p.1 - mean x) / sqrt (variance x + 1e-12) * d.gamma p.2 + d.beta p.2

/-- Lines 112-115 and 123-126. -/
noncomputable def hidden (ln : Bool) (act : ℝ → ℝ) (d : Dense) (n : ℕ) (x : List ℝ) : List ℝ :=
  (if ln then layerNorm d (dense d n x) else dense d n x).map act

/-- Lines 111-115 and 122-126. -/
noncomputable def stream (θ : ℕ → Dense) (ln : Bool) (act : ℝ → ℝ) : ℕ → List ℕ → List ℝ → List ℝ
  | _, [], x => x
  | i, n :: t, x => stream θ ln act (i + 1) t (hidden ln act (θ i) n x)

/-! ### The constructor -/

/-- What the network is made from. -/
structure Cfg where
  cnn : Bool
  layers : List ℕ
  ln : Bool
  dueling : Bool
deriving DecidableEq

/-- The values before the dueling head, lines 105-117: in the case of a CNN there are no further layers. -/
noncomputable def scores (θ : Vars) (act : ℝ → ℝ) (ext : List ℝ → List ℝ) (c : Cfg) (m : ℕ) (x : List ℝ) (i : Fin m) : ℝ :=
  if c.cnn then affine (θ.action 0) (ext x) i
  else affine (θ.action c.layers.length) (stream θ.action c.ln act 0 c.layers x) i

/-- `state_score`, lines 120-127. -/
noncomputable def stateScore (θ : Vars) (act : ℝ → ℝ) (ext : List ℝ → List ℝ) (c : Cfg) (x : List ℝ) : ℝ :=
  affine (θ.value c.layers.length) (stream θ.value c.ln act 0 c.layers (if c.cnn then ext x else x)) 0

/-- `q_values`, lines 103-134. -/
noncomputable def qValues (θ : Vars) (act : ℝ → ℝ) (ext : List ℝ → List ℝ) (c : Cfg) (m : ℕ) (x : List ℝ) : Fin m → ℝ :=
  if c.dueling then QLoss.dueling (stateScore θ act ext c x) (scores θ act ext c m x) else scores θ act ext c m x

/-- The registered policies. -/
inductive Cls
  | cnn | lnCnn | mlp | lnMlp
deriving DecidableEq

/-- The keywords given by the user: `clash` if one of them is `feature_extraction` or `layer_norm`, `extra` if one is not known to the constructor. -/
structure Args where
  dueling : Option Bool := none
  layers : Option (List ℕ) := none
  clash : Bool := false
  extra : Bool := false

/-- `FeedForwardPolicy.__init__`, lines 91-101: the checks and the default layers. -/
def feedForward (cnn ln dueling : Bool) (layers : Option (List ℕ)) (extra discrete : Bool) : Py Cfg :=
  if discrete = false then .error .assertion
  else if cnn = false ∧ extra = true then .error .valueError
  else .ok { cnn := cnn, layers := layers.getD [64, 64], ln := ln, dueling := dueling }

/-- The constructors of the four policies, lines 172-176, 196-200, 220-224 and 244-248 (the last does not pass on `dueling`). -/
def build (cls : Cls) (discrete : Bool) (a : Args) : Py Cfg :=
  if a.clash then .error .typeError
  else match cls with
    | .cnn => feedForward true false (a.dueling.getD true) a.layers a.extra discrete
    | .lnCnn => feedForward true true (a.dueling.getD true) a.layers a.extra discrete
    | .mlp => feedForward false false (a.dueling.getD true) a.layers a.extra discrete
    | .lnMlp => feedForward false true true a.layers a.extra discrete

/-! ### Acting -/

/-- `p.cumsum()`, divided by its last entry. -/
noncomputable def cdf {m : ℕ} (p : Fin m → ℝ) (i : Fin m) : ℝ := (∑ j with j ≤ i, p j) / ∑ j, p j

/-- `np.random.choice(m, p=p)`: `cdf.searchsorted(u, side='right')`. -/
noncomputable def choose {m : ℕ} (p : Fin m → ℝ) (u : ℝ) : ℕ := ((List.finRange m).filter fun i => cdf p i ≤ u).length

/-- `argmax` of one row; an empty row is refused. -/
noncomputable def greedy {m : ℕ} (q : Fin m → ℝ) : Py ℕ :=
  match argmax q with
  | some i => .ok i
  | none => .error .valueError

/-- Line 147 for one row. -/
noncomputable def sampled {m : ℕ} (q : Fin m → ℝ) (u : ℝ) : Py ℕ := if m = 0 then .error .valueError else .ok (choose (softmax q) u)

/-- `step`, lines 137-149: the actions for the rows `qs` of q-values; `u` are the draws. -/
noncomputable def step {m : ℕ} (deterministic : Bool) (u : ℕ → ℝ) (qs : List (Fin m → ℝ)) : Py (List ℕ) :=
  mapRows (fun i q => if deterministic then greedy q else sampled q (u i)) 0 qs

/-- `predict`, dqn.py lines 326-337: `state` and `mask` are not used. -/
noncomputable def predict {m : ℕ} (net : List ℝ → Fin m → ℝ) (sp : ObsSpace) (shape : List ℕ) (obs : List (List ℝ)) (deterministic : Bool) (u : ℕ → ℝ) : Py (Ret (List ℕ) ℕ) := do
  let v ← isVectorized sp shape
  let a ← step deterministic u (obs.map net)
  finish v false a

/-- Line 351 for one row: the probability of the given action. -/
noncomputable def probOf {m : ℕ} (q : Fin m → ℝ) (a : ℤ) : Py ℝ :=
  match npIndex m a with
  | some i => .ok (softmax q i)
  | none => .error .indexError

/-- Lines 344-355: the rows of the answer. -/
noncomputable def probRows {m : ℕ} (qs : List (Fin m → ℝ)) (acts : Option (List ℤ)) (logp : Bool) : Py (List (List ℝ)) :=
  match acts with
  | none => .ok (qs.map fun q => List.ofFn (softmax q))
  | some as =>
    if qs.length = as.length then
      match mapRows (fun _ p => probOf p.1 p.2) 0 (qs.zip as) with
      | .error e => .error e
      | .ok ps => .ok (ps.map fun p => [if logp then log p else p])
    else .error .assertion

/-- `action_probability`, lines 339-362; `state`: whether one is given. -/
noncomputable def actionProbability {m : ℕ} (net : List ℝ → Fin m → ℝ) (sp : ObsSpace) (shape : List ℕ) (obs : List (List ℝ)) (state : Bool) (acts : Option (List ℤ)) (logp : Bool) :
    Py (Ret (List (List ℝ)) (List ℝ)) := do
  let v ← isVectorized sp shape
  let r ← probRows (obs.map net) acts logp
  finish v state r

end Neorl.DQNNet
