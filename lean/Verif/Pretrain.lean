import Verif.Py
import Mathlib.Analysis.SpecialFunctions.Log.Basic
import Mathlib.Algebra.BigOperators.Field
import Mathlib.Algebra.Order.Floor.Ring

/-!
# Pretraining

Model of `pretrain` (`neorl/rl/baselines/shared/base_class.py` lines 290-374), the cloning of an expert's behaviour, with the placeholders of the agents (`_get_pretrain_placeholders` in
`a2c.py` lines 116-120, `acer_simple.py` lines 239-244, `acktr.py` lines 121-125, `dqn.py` lines 102-104, `ppo2.py` lines 102-106).

The variables of the graph are the parameters of the agent (`self.params`), the state of the optimiser, and all others (for DQN the target network).  One step of the optimiser is an arbitrary
function of the first two and the batch; the loader gives an arbitrary stream of batches for each of the two parts of the data.  Printed lines are a list of reports.
-/

set_option linter.unusedSectionVars false
set_option linter.unusedVariables false

namespace Neorl.Pretrain

/-! ### The loss -/

section
variable {m n : ℕ}

/-- `tf.nn.softmax_cross_entropy_with_logits_v2` for a one-hot label. -/
noncomputable def crossEntropy (z : Fin m → ℝ) (a : Fin m) : ℝ := -Real.log (Real.exp (z a) / ∑ j, Real.exp (z j))

/-- Lines 324-333: discrete actions. -/
noncomputable def lossDiscrete (z : Fin n → Fin m → ℝ) (a : Fin n → Fin m) : ℝ := (∑ i, crossEntropy (z i) (a i)) / n

/-- Lines 321-322: continuous actions. -/
noncomputable def lossBox (y a : Fin n → Fin m → ℝ) : ℝ := (∑ i, ∑ j, (a i j - y i j) ^ 2) / (n * m)

end

/-! ### The training -/

/-- The action spaces that matter here. -/
inductive Space
  | discrete | box | other
deriving DecidableEq

/-- The variables. -/
structure State (P O X : Type) where
  params : P
  slots : O
  rest : X

/-- A call of `pretrain`: `init` is what `global_variables_initializer` draws. -/
structure Call (K P O X B : Type) where
  space : Space
  epochs : ℚ
  interval : Option ℤ
  verbose : Bool
  trainLen : ℕ
  valLen : ℕ
  train : ℕ → B
  val : ℕ → B
  init : State P O X
  upd : P × O → B → P × O
  loss : P → B → K

variable {K : Type} [Field K] [LinearOrder K] [IsStrictOrderedRing K] {P O X B : Type}

/-- Lines 309-315. -/
def interval (epochs : ℚ) : Option ℤ → ℤ
  | some v => v
  | none => if epochs < 10 then 1 else ⌊epochs / 10⌋

/-- Lines 345-352: `k` batches from number `i` on; the sum of the losses, each before its step. -/
def pass (c : Call K P O X B) : ℕ → ℕ → P × O → K → (P × O) × K
  | 0, _, θ, l => (θ, l)
  | k + 1, i, θ, l => pass c k (i + 1) (c.upd θ (c.train i)) (l + c.loss θ.1 (c.train i))

/-- Lines 358-363. -/
def valSum (c : Call K P O X B) (p : P) : ℕ → ℕ → K → K
  | 0, _, l => l
  | k + 1, i, l => valSum c p k (i + 1) (l + c.loss p (c.val i))

/-- A report: epoch, training loss, validation loss. -/
structure Report (K : Type) where
  epoch : ℕ
  train : K
  val : K
deriving DecidableEq

/-- Line 356: is this epoch (counted from zero) reported?  `and` does not look at the interval when nothing is printed. -/
def due (verbose : Bool) (v : ℤ) (e : ℕ) : Py Bool :=
  if verbose then (if v = 0 then .error .zeroDivision else .ok (((e : ℤ) + 1) % v == 0)) else .ok false

/-- The loop, lines 342-371: `e` epochs are done, `j` batches of the validation part are used. -/
def loop (c : Call K P O X B) (v : ℤ) : ℕ → ℕ → ℕ → P × O → List (Report K) → Py ((P × O) × List (Report K))
  | 0, _, _, θ, rs => .ok (θ, rs)
  | k + 1, e, j, θ, rs =>
    let r := pass c c.trainLen (e * c.trainLen) θ 0
    if c.trainLen = 0 then .error .zeroDivision
    else do
      let d ← due c.verbose v e
      if d then
        if c.valLen = 0 then .error .zeroDivision
        else loop c v k (e + 1) (j + c.valLen) r.1 (rs ++ [⟨e + 1, r.2 / c.trainLen, valSum c r.1.1 c.valLen j 0 / c.valLen⟩])
      else loop c v k (e + 1) j r.1 rs

/-- `pretrain` from the variables `s`: line 337 draws all of them anew. -/
def pretrain (c : Call K P O X B) (s : State P O X) : Py (State P O X × List (Report K)) :=
  if c.space = .other then .error .assertion
  else
    let v := interval c.epochs c.interval
    let s := c.init
    (loop c v (if 0 ≤ c.epochs then ⌊c.epochs⌋.toNat else 0) 0 0 (s.params, s.slots) []).map fun r => ({ params := r.1.1, slots := r.1.2, rest := s.rest }, r.2)

end Neorl.Pretrain
