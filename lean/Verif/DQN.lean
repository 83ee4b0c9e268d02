import Verif.Replay
import Verif.Schedule
import Mathlib.Data.Rat.Floor

/-!
# The training loop of DQN

Model of `DQN.learn` (`neorl/rl/baselines/deepq/dqn.py` lines 149-310) with the uniform replay buffer (`Replay`) and the exploration schedule (`Schedule.linearValue`).

* The environment, the Q network (`act`), the gradient step (`upd`, on online and target parameters) and the sampling (`draws`) are arbitrary functions; the callback is an arbitrary sequence of decisions to
stop (C95).
* Not modelled: prioritised replay (C35), hindsight replay (C36), parameter noise (C146), observation normalisation (C92), logging.
-/

set_option linter.unusedSectionVars false
set_option linter.unusedVariables false

namespace Neorl.DQN

/-- An environment; `vec` says that it is a vectorised environment of one, which resets itself at the end of an episode and returns the first observation of the next one. -/
structure Env (E O A : Type) where
  step : E → A → E × O × ℚ × Bool
  reset : E → E × O
  vec : Bool

/-- A stored transition, buffers.py line 63. -/
structure Tr (O A : Type) where
  obs : O
  act : A
  rew : ℚ
  next : O
  done : Bool
deriving DecidableEq

/-- What a training is made of: attributes of the model and the arguments of `learn`. -/
structure Cfg (Θ E O A : Type) where
  env : Env E O A
  act : Θ → ℕ → O → ℚ → A
  upd : Θ → Θ → List (Tr O A) → Θ
  draws : ℕ → ℕ → List ℕ
  stop : ℕ → Bool
  size : ℕ
  batch : ℕ
  starts : ℕ
  trainFreq : ℕ
  targetFreq : ℕ
  fraction : ℚ
  eps0 : ℚ
  eps1 : ℚ

/-- Environment, current observation, `num_timesteps`, number of the step within this call, replay buffer, online and target parameters, `episode_rewards[:-1]` and `episode_rewards[-1]`. -/
structure St (Θ E O A : Type) where
  e : E
  obs : O
  nts : ℕ
  k : ℕ
  buf : Replay.Buf (Tr O A)
  θ : Θ
  tgt : Θ
  closed : List ℚ
  cur : ℚ

/-- What happened in one step that the callback did not stop: the transition, the exploration rate, the batch trained on (if any) and whether the target network was updated. -/
structure Entry (O A : Type) where
  tr : Tr O A
  eps : ℚ
  trained : Option (List (Tr O A))
  synced : Bool
deriving DecidableEq

variable {Θ E O A : Type}

/-- `LinearSchedule(int(exploration_fraction * total_timesteps), exploration_initial_eps, exploration_final_eps).value(num_timesteps)`, dqn.py lines 180-182 and 202 (for a fraction that is not
negative, where `int` rounds down). -/
def exploration (c : Cfg Θ E O A) (total t : ℕ) : Py ℚ := Schedule.linearValue ((⌊c.fraction * total⌋ : ℤ) : ℚ) c.eps1 c.eps0 (t : ℚ)

/-- `self.num_timesteps % freq == 0`. -/
def modZero (t freq : ℕ) : Py Bool := if freq = 0 then .error .zeroDivision else .ok (t % freq == 0)

/-- Lines 259-264 (`and` stops at the first false operand). -/
def due (c : Cfg Θ E O A) (len t freq : ℕ) : Py Bool := if decide (c.batch ≤ len) && decide (c.starts < t) then modZero t freq else .ok false

/-- The end of an episode, lines 247-255, and line 246. -/
def finish (c : Cfg Θ E O A) (r : ℚ) (done : Bool) (s : St Θ E O A) : St Θ E O A :=
  if done then
    let p := if c.env.vec then (s.e, s.obs) else c.env.reset s.e
    { s with e := p.1, obs := p.2, closed := s.closed ++ [s.cur + r], cur := 0 }
  else { s with cur := s.cur + r }

/-- Lines 257-299: training on a batch, then updating the target network. -/
def train (c : Cfg Θ E O A) (s : St Θ E O A) : Py (St Θ E O A × Option (List (Tr O A)) × Bool) :=
  match due c s.buf.storage.length s.nts c.trainFreq with
  | .error e => .error e
  | .ok b1 =>
    match (if b1 then (Replay.sample s.buf (c.draws s.k s.buf.storage.length)).map some else .ok none) with
    | .error e => .error e
    | .ok bt =>
      let θ' := match bt with
        | some xs => c.upd s.θ s.tgt xs
        | none => s.θ
      match due c s.buf.storage.length s.nts c.targetFreq with
      | .error e => .error e
      | .ok b2 => .ok ({ s with θ := θ', tgt := if b2 then θ' else s.tgt }, bt, b2)

/-- The loop, lines 197-310; the flag says that the callback stopped it. -/
def loop (c : Cfg Θ E O A) (total : ℕ) : ℕ → St Θ E O A → Py (St Θ E O A × List (Entry O A) × Bool)
  | 0, s => .ok (s, [], false)
  | n + 1, s =>
    match exploration c total s.nts with
    | .error e => .error e
    | .ok eps =>
      let a := c.act s.θ s.k s.obs eps
      let q := c.env.step s.e a
      if c.stop s.k then .ok ({ s with e := q.1, nts := s.nts + 1, k := s.k + 1 }, [], true)
      else
        let x : Tr O A := ⟨s.obs, a, q.2.2.1, q.2.1, q.2.2.2⟩
        match Replay.add s.buf x with
        | .error e => .error e
        | .ok b =>
          match train c (finish c q.2.2.1 q.2.2.2 { s with e := q.1, obs := q.2.1, nts := s.nts + 1, k := s.k + 1, buf := b }) with
          | .error e => .error e
          | .ok (s', bt, b2) =>
            match loop c total n s' with
            | .error e => .error e
            | .ok (s'', l, f) => .ok (s'', ⟨x, eps, bt, b2⟩ :: l, f)

/-- `learn`: a new replay buffer (line 173), a reset of the environment (line 192), `num_timesteps` from zero if asked. -/
def learn (c : Cfg Θ E O A) (total : ℕ) (reset : Bool) (e : E) (nts : ℕ) (θ tgt : Θ) : Py (St Θ E O A × List (Entry O A) × Bool) :=
  loop c total total ⟨(c.env.reset e).1, (c.env.reset e).2, if reset then 0 else nts, 0, Replay.new c.size, θ, tgt, [], 0⟩

end Neorl.DQN
