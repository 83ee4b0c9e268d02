import Verif.Py

/-!
# Attaching environments to models

Model of `BaseRLModel.__init__`, `set_env`, `_setup_learn` (`neorl/rl/baselines/shared/base_class.py` lines 43-98, 115-162, 220-230), of the runner of
`ActorCriticRLModel` (lines 773-799), of `ACER.set_env` (`acer/acer_simple.py` lines 246-252), of `n_batch` in `setup_model` and `learn` of A2C, PPO2 and
ACKTR, and of `SetVerbosity` (base_class.py lines 1117-1147).  An environment is described by its spaces, whether it is vectorised, how many environments it
holds and the `VecNormalize` object among its wrappers.  Functions that change the model return it together with the exception, in the state in which the exception leaves it.
-/

set_option linter.unusedSectionVars false
set_option linter.unusedVariables false

namespace Neorl.Attach

variable {S A N : Type} [DecidableEq S] [DecidableEq A]

/-- An environment: spaces, vectorised or not, `num_envs` (only if vectorised), the `VecNormalize` wrapper (only if vectorised). -/
structure EnvD (S A N : Type) where
  obs : S
  act : A
  vec : Bool
  num : ℕ
  norm : Option N

/-- The attribute `env`: the given environment, `DummyVecEnv([lambda: env])` (line 80) or `_UnvecWrapper(env)` (lines 88, 147). -/
inductive Att (S A N : Type)
  | plain (e : EnvD S A N)
  | dummy (e : EnvD S A N)
  | unvec (e : EnvD S A N)

/-- `isinstance(env, VecEnv)`; `_UnvecWrapper` is a `VecEnvWrapper`, line 1061. -/
def Att.isVec : Att S A N → Bool
  | .plain e => e.vec
  | .dummy _ => true
  | .unvec _ => true

/-- `env.num_envs`. -/
def Att.num : Att S A N → ℕ
  | .plain e => e.num
  | .dummy _ => 1
  | .unvec e => e.num

/-- `unwrap_vec_normalize`, vec_env/__init__.py lines 17-27. -/
def Att.norm : Att S A N → Option N
  | .plain e => if e.vec then e.norm else none
  | .dummy _ => none
  | .unvec e => e.norm

/-- The attributes of a model that have to do with its environment (lines 50-68, 782, a2c.py 89); `ep_info_buf` is invalidated with `episode_reward`. -/
structure Model (S A N : Type) where
  requires : Bool
  recurrent : Bool
  nSteps : ℕ
  obs : Option S
  act : Option A
  env : Option (Att S A N)
  nEnvs : Option ℕ
  vectorize : Bool
  norm : Option N
  epReward : Option (List ℚ)
  runner : Option (Att S A N × ℕ)
  nBatch : Option ℕ

/-- The model of lines 50-68 before the environment is looked at. -/
def blank (requires recurrent : Bool) (nSteps : ℕ) : Model S A N :=
  { requires := requires, recurrent := recurrent, nSteps := nSteps, obs := none, act := none, env := none, nEnvs := none, vectorize := false, norm := none,
    epReward := none, runner := none, nBatch := none }

/-- `__init__`, lines 70-98, for an environment or `None`. -/
def construct (requires recurrent : Bool) (nSteps : ℕ) : Option (EnvD S A N) → Py (Model S A N)
  | none => .ok (blank requires recurrent nSteps)
  | some e =>
    let m : Model S A N := { blank requires recurrent nSteps with obs := some e.obs, act := some e.act, env := some (.plain e) }
    if requires then
      if e.vec then .ok { m with nEnvs := some e.num, norm := (Att.plain e).norm }
      else .ok { m with env := some (.dummy e), nEnvs := some 1, norm := (Att.dummy e).norm }
    else
      if e.vec then
        if e.num = 1 then .ok { m with env := some (.unvec e), vectorize := true, nEnvs := some 1, norm := (Att.unvec e).norm }
        else .error .valueError
      else .ok { m with nEnvs := some 1, norm := (Att.plain e).norm }

/-- `__init__` with the name of a registered environment, lines 70-75: `gym.make` (a parameter) in a `DummyVecEnv`. -/
def constructName (make : List Char → Py (EnvD S A N)) (requires recurrent : Bool) (nSteps : ℕ) (name : List Char) : Py (Model S A N) :=
  match make name with
  | .error e => .error e
  | .ok e => construct requires recurrent nSteps (some { e with vec := true, num := 1, norm := none })

/-- The end of `set_env`, lines 157-162. -/
def install (m : Model S A N) (a : Att S A N) : Model S A N := { m with env := some a, norm := a.norm, epReward := none }

/-- `BaseRLModel.set_env`, lines 115-162. -/
def setEnv (m : Model S A N) : Option (EnvD S A N) → Model S A N × Option PyErr
  | none => match m.env with | none => (m, none) | some _ => (m, some .valueError)
  | some e =>
    if m.obs ≠ some e.obs then (m, some .assertion)
    else if m.act ≠ some e.act then (m, some .assertion)
    else if m.requires then
      if !e.vec then (m, some .assertion)
      else if m.recurrent && decide (m.nEnvs ≠ some e.num) then (m, some .assertion)
      else (install { m with nEnvs := some e.num } (.plain e), none)
    else
      if e.vec then
        if e.num = 1 then (install { m with vectorize := true, nEnvs := some 1 } (.unvec e), none)
        else (m, some .valueError)
      else (install { m with vectorize := false, nEnvs := some 1 } (.plain e), none)

/-- `ActorCriticRLModel.set_env`, lines 797-799. -/
def setEnvAC (m : Model S A N) (e : Option (EnvD S A N)) : Model S A N × Option PyErr := setEnv { m with runner := none } e

/-- `ACER.set_env`, acer_simple.py lines 246-252; an environment that is not vectorised has no `num_envs`. -/
def setEnvACER (m : Model S A N) : Option (EnvD S A N) → Model S A N × Option PyErr
  | none => setEnvAC m none
  | some e =>
    if !e.vec then (m, some .attributeError)
    else if m.nEnvs ≠ some e.num then (m, some .assertion)
    else setEnvAC m (some e)

/-- `self.n_batch = self.n_envs * self.n_steps` of `setup_model` (a2c.py 133, ppo2.py 114) or `learn` (acktr.py 293). -/
def setBatch (m : Model S A N) : Py (Model S A N) :=
  match m.nEnvs with
  | none => .error .typeError
  | some n => .ok { m with nBatch := some (n * m.nSteps) }

/-- `_setup_learn`, lines 220-230. -/
def setupLearn (m : Model S A N) : Py (Model S A N) :=
  match m.env, m.nEnvs with
  | none, _ => .error .valueError
  | some _, none => .error .typeError
  | some _, some n => .ok (match m.epReward with | none => { m with epReward := some (List.replicate n 0) } | some _ => m)

/-- The property `runner`, lines 791-795; `AbstractEnvRunner.__init__` keeps `env` and `env.num_envs` (shared/runners.py lines 26-37). -/
def getRunner (m : Model S A N) : Py (Model S A N × (Att S A N × ℕ)) :=
  match m.runner, m.env with
  | some r, _ => .ok (m, r)
  | none, none => .error .attributeError
  | none, some a => .ok ({ m with runner := some (a, a.num) }, (a, a.num))

/-- The steps taken by `learn(total)` of A2C and PPO2 without early stop: `total // n_batch` rollouts (a2c.py 265, ppo2.py 316) of `n_steps` steps in each
environment of the runner. -/
def collected (m : Model S A N) (total : ℕ) : Py ℕ := do
  let m ← setupLearn m
  let r ← getRunner m
  match m.nBatch with
  | none => .error .typeError
  | some 0 => .error .zeroDivision
  | some b => .ok (total / b * (r.2.2 * m.nSteps))

/-- The samples of one rollout that PPO2 trains on, ppo2.py lines 349-358: `arr[inds]` for a shuffled `arange(n_batch)`, from the samples of the rollout. -/
def trained {X : Type} (m : Model S A N) (rollout : List X) (shuf : List ℕ → List ℕ) : Py (List X) :=
  match m.nBatch with
  | none => .error .typeError
  | some b => (shuf (List.range b)).mapM fun i => match rollout[i]? with | some x => .ok x | none => .error .indexError

/-- ACKTR sets `n_batch` in `learn` (acktr.py lines 290-293, 331). -/
def collectedACKTR (m : Model S A N) (total : ℕ) : Py ℕ := do
  let m ← setupLearn m
  let m ← setBatch m
  collected m total

/-- What a user does with a model: try to attach an environment (ignoring the exception), or start learning (`_setup_learn`, then the runner). -/
inductive Act (S A N : Type)
  | set (e : Option (EnvD S A N))
  | learn

/-- One action; `sets` is the `set_env` of the class. -/
def act (sets : Model S A N → Option (EnvD S A N) → Model S A N × Option PyErr) (m : Model S A N) : Act S A N → Model S A N
  | .set e => (sets m e).1
  | .learn =>
    match setupLearn m with
    | .error _ => m
    | .ok m1 => match getRunner m1 with
      | .error _ => m1
      | .ok r => r.1

/-- A sequence of actions. -/
def acts (sets : Model S A N → Option (EnvD S A N) → Model S A N × Option PyErr) (m : Model S A N) (l : List (Act S A N)) : Model S A N :=
  l.foldl (act sets) m

/-! ### Verbosity, lines 1117-1147 -/

/-- The environment variable `TF_CPP_MIN_LOG_LEVEL` (if set), the level of the logger and that of gym. -/
structure Levels where
  tf : Option (List Char)
  log : ℕ
  gym : ℕ
  deriving DecidableEq

/-- Code with regions of verbosity: anything that changes the levels, or a region. -/
inductive Code
  | change (f : Levels → Levels)
  | region (v : ℤ) (body : List Code)

/-- `__enter__`, lines 1126-1136 (`DISABLED` is 50 for both loggers). -/
def enter (v : ℤ) (s : Levels) : Levels :=
  let s := if v ≤ 1 then { s with tf := some "3".toList } else s
  if v ≤ 0 then { s with log := 50, gym := 50 } else s

/-- `__exit__`, lines 1138-1147: `saved` are the levels at `__enter__` (`os.environ.get(…, '0')`). -/
def leave (v : ℤ) (saved s : Levels) : Levels :=
  let s := if v ≤ 1 then { s with tf := some (saved.tf.getD "0".toList) } else s
  if v ≤ 0 then { s with log := saved.log, gym := saved.gym } else s

mutual
/-- Running code; `__exit__` also runs if the body raises. -/
def Code.run : Code → Levels → Levels
  | .change f, s => f s
  | .region v body, s => leave v s (runAll body (enter v s))
/-- Running a sequence. -/
def runAll : List Code → Levels → Levels
  | [], s => s
  | c :: r, s => runAll r (c.run s)
end

end Neorl.Attach
