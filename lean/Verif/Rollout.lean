import Verif.Py
import Mathlib.Data.Rat.Floor
import Mathlib.Data.List.Range

/-!
# Training loops of the on-policy learners

Model of the runners and `learn` loops of PPO2 (`neorl/rl/baselines/ppo2/ppo2.py`), A2C (`a2c/a2c.py`) and ACER (`acer/acer_simple.py`), with `shared/runners.py`.

* Environments, policy network and learning update are arbitrary functions; the random draws of the policy are an argument (the number of the draw).
* Observations, dones and rewards of all environments together are single values here (the vector environment is C91).
* The callback is an arbitrary sequence of decisions to stop (C95).
-/

set_option linter.unusedSectionVars false
set_option linter.unusedVariables false

namespace Neorl.Rollout

/-- The environments: state, action, next state, observation, reward, dones. -/
structure Env (E O D R A : Type) where
  step : E → A → E × O × R × D

/-- The policy with parameters `Θ`: number of the draw, observation, recurrent state, dones. -/
structure Agent (Θ O D S A : Type) where
  act : Θ → ℕ → O → S → D → A × S

/-- One row of the minibatch lists. -/
structure Row (O D R A : Type) where
  obs : O
  done : D
  act : A
  rew : R
deriving DecidableEq

/-- The attributes of a runner (shared/runners.py lines 26-36), the state of the environments, the model's `num_timesteps`, the number of calls so far, and `out`: what the environments returned last (not
in the code). -/
structure St (E O D S : Type) where
  e : E
  obs : O
  done : D
  state : S
  nts : ℕ
  calls : ℕ
  out : O × D

variable {Θ E O D R A S : Type}

/-- What a training is made of; `early` says whether the runner stores the new observation before the callback is called (PPO2) or after (A2C, ACER); `n` is the number of environments. -/
structure Setup (Θ E O D R A S : Type) where
  env : Env E O D R A
  agent : Agent Θ O D S A
  clip : A → A
  n : ℕ
  early : Bool
  stop : ℕ → Bool
  upd : Θ → List (Row O D R A) → Θ

/-- The loop of `_run`: ppo2.py lines 468-497, a2c.py lines 355-386, acer_simple.py lines 712-742.  `none` is the list of dummy values after the callback stopped the training. -/
def runLoop (c : Setup Θ E O D R A S) (θ : Θ) : ℕ → St E O D S → St E O D S × Option (List (Row O D R A))
  | 0, s => (s, some [])
  | k + 1, s =>
    let p := c.agent.act θ s.calls s.obs s.state s.done
    let q := c.env.step s.e (c.clip p.1)
    let s1 := { s with e := q.1, nts := s.nts + c.n, calls := s.calls + 1, out := (q.2.1, q.2.2.2) }
    let s2 := if c.early then { s1 with obs := q.2.1, done := q.2.2.2, state := p.2 } else s1
    if c.stop s.calls then (s2, none)
    else
      let s3 := { s2 with obs := q.2.1, done := q.2.2.2, state := p.2 }
      let r := runLoop c θ k s3
      (r.1, r.2.map fun rows => { obs := s.obs, done := s.done, act := p.1, rew := q.2.2.1 } :: rows)

/-- The loop over the updates of `learn`: ppo2.py lines 320-350, a2c.py lines 265-285, acer_simple.py lines 571-605.  Returns the state, the parameters and the rollouts used. -/
def learnLoop (c : Setup Θ E O D R A S) (nSteps : ℕ) : ℕ → Θ → St E O D S → St E O D S × Θ × List (List (Row O D R A))
  | 0, θ, s => (s, θ, [])
  | k + 1, θ, s =>
    match runLoop c θ nSteps s with
    | (s1, none) => (s1, θ, [])
    | (s1, some rows) =>
      let r := learnLoop c nSteps k (c.upd θ rows) s1
      (r.1, r.2.1, rows :: r.2.2)

/-- The number of updates of PPO2 and A2C: `total_timesteps // n_batch` (ppo2.py line 316, a2c.py line 265). -/
def updates (total nBatch : ℕ) : ℕ := total / nBatch

/-- That of ACER: `len(range(0, total_timesteps, n_batch))`, acer_simple.py line 571. -/
def updatesAcer (total nBatch : ℕ) : ℕ := (total + nBatch - 1) / nBatch

/-- `learn`, with `_init_num_timesteps(reset)` (base_class.py lines 164-177). -/
def learn (c : Setup Θ E O D R A S) (nSteps k : ℕ) (reset : Bool) (θ : Θ) (s : St E O D S) : St E O D S × Θ × List (List (Row O D R A)) :=
  learnLoop c nSteps k θ (if reset then { s with nts := 0 } else s)

/-- `frac` of update number `u` (from 1), ppo2.py line 328. -/
def frac (nUpdates u : ℕ) : ℚ := 1 - ((u : ℚ) - 1) / nUpdates

/-! ### Minibatches of PPO2 -/

/-- `range(0, n, b)` of the slices, ppo2.py line 354: the slices `inds[start:start + b]`, from `start` on (at most `fuel` of them). -/
def slices (b n : ℕ) (inds : List ℕ) : ℕ → ℕ → List (List ℕ)
  | 0, _ => []
  | fuel + 1, start => if start < n then ((inds.drop start).take b) :: slices b n inds fuel (start + b) else []

/-- One epoch of the version without recurrent policy, lines 353-361: `inds` is the shuffled array of indices. -/
def epoch (nBatch batchSize : ℕ) (inds : List ℕ) : List (List ℕ) := slices batchSize nBatch inds nBatch 0

/-- The epochs of an update, lines 320-361: with the assertion of line 321; `np.random.shuffle` gives any arrangement `shuf k` of the array in epoch `k`. -/
def minibatches (nBatch nmini noptepochs : ℕ) (shuf : ℕ → List ℕ) : Py (List (List ℕ)) :=
  if nmini = 0 then .error .zeroDivision
  else if nBatch % nmini ≠ 0 then .error .assertion
  else .ok ((List.range noptepochs).flatMap fun k => epoch nBatch (nBatch / nmini) (shuf k))

/-- `flat_indices[mb_env_inds].ravel()`, lines 365-375, with `flat_indices = arange(n_envs * n_steps).reshape(n_envs, n_steps)`. -/
def flatInds (nSteps : ℕ) (envs : List ℕ) : List ℕ := envs.flatMap fun e => (List.range nSteps).map fun t => e * nSteps + t

/-- The recurrent version, lines 363-380. -/
def minibatchesRec (nEnvs nSteps nmini noptepochs : ℕ) (shuf : ℕ → List ℕ) : Py (List (List ℕ)) :=
  if nmini = 0 then .error .zeroDivision
  else if (nEnvs * nSteps) % nmini ≠ 0 then .error .assertion
  else if nEnvs % nmini ≠ 0 then .error .assertion
  else .ok ((List.range noptepochs).flatMap fun k => (slices (nEnvs * nSteps / nmini / nSteps) nEnvs (shuf k) nEnvs 0).map (flatInds nSteps))

/-- `swap_and_flatten`, lines 528-536: `arr` has one row per step with one entry per environment. -/
def swapFlatten {α : Type} (nEnvs : ℕ) (arr : List (List α)) : List α := (List.range nEnvs).flatMap fun e => arr.filterMap fun row => row[e]?

end Neorl.Rollout
