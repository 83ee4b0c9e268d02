import Verif.Py
import Mathlib.Algebra.BigOperators.Group.List.Basic
import Mathlib.Algebra.Ring.Defs

/-!
# The trajectory generator (neorl/rl/baselines/shared/runners.py, lines 60-209)

Policy, environment, reward giver and callback are arbitrary functions of the time step and of what they are given, so they may be random and may learn between segments.  Arrays written at the same place are
kept together: `Pre` (lines 146-149) and `Post` (lines 184-186).
-/

set_option linter.unusedSectionVars false
set_option linter.unusedVariables false

namespace Neorl.Traj

variable {O A S K : Type}

/-- What `observations`, `vpreds`, `actions` and `episode_starts` hold at one place. -/
structure Pre (O A K : Type) where
  obs : O
  v : K
  act : A
  start : Bool
  deriving DecidableEq

/-- What `rewards`, `true_rewards` and `dones` hold at one place. -/
structure Post (K : Type) where
  rew : K
  true_ : K
  done : Bool
  deriving DecidableEq

/-- The arguments, and what the outside world does at every step. -/
structure Cfg (O A S K : Type) where
  horizon : ℕ
  gail : Bool
  /-- `isinstance(env, VecEnv)` -/
  vec : Bool
  /-- the clipping of lines 151-154 (the identity unless the action space is a `Box`) -/
  clip : A → A
  /-- `policy.step(observation, states, done)` at a time step: action, value, state -/
  pol : ℕ → O → S → Bool → A × K × S
  /-- the value of `policy.step(observation)` after a segment was handed out -/
  val : ℕ → O → K
  /-- `env.step`: observation, reward, done, `info['episode']['r']` if there is one -/
  env : ℕ → A → O × K × Bool × Option K
  /-- `env.reset()` after the given time step -/
  reset : ℕ → O
  giver : ℕ → O → A → K
  /-- what `callback.on_step()` answers -/
  go : ℕ → Bool
  obs0 : O
  init : S
  sample : A

/-- The variables of the generator. -/
structure St (O A S K : Type) where
  step : ℕ
  obs : O
  curRet : K
  itLen : ℕ
  epLen : ℕ
  curTrue : K
  epTrues : List K
  epRets : List K
  epLens : List ℕ
  pre : List (Pre O A K)
  post : List (Post K)
  states : S
  episodeStart : Bool
  done : Bool

/-- A yielded dictionary. -/
structure Seg (O A K : Type) where
  pre : List (Pre O A K)
  post : List (Post K)
  nextv : K
  epRets : List K
  epLens : List ℕ
  epTrues : List K
  total : ℕ
  continue_ : Bool
  deriving DecidableEq

variable [Ring K]

/-- Lines 86-109. -/
def start (c : Cfg O A S K) : St O A S K :=
  { step := 0, obs := c.obs0, curRet := 0, itLen := 0, epLen := 0, curTrue := 0, epTrues := [], epRets := [], epLens := [],
    pre := List.replicate c.horizon ⟨c.obs0, 0, c.sample, false⟩, post := List.replicate c.horizon ⟨0, 0, false⟩, states := c.init, episodeStart := true, done := false }

/-- The yielded dictionary (lines 121-135 and 167-181). -/
def seg (s : St O A S K) (v : K) (cont : Bool) : Seg O A K := ⟨s.pre, s.post, v * (1 - if s.episodeStart then 1 else 0), s.epRets, s.epLens, s.epTrues, s.itLen, cont⟩

/-- Lines 139-143, after a segment was handed out. -/
def clear (s : St O A S K) : St O A S K := { s with epRets := [], epTrues := [], epLens := [], itLen := 0 }

/-- Lines 184-209, after the callback. -/
def finish (c : Cfg O A S K) (s : St O A S K) (obs : O) (rew true_ : K) (done : Bool) (info : Option K) : St O A S K :=
  let i := s.step % c.horizon
  let s := { s with post := s.post.set i ⟨rew, true_, done⟩, episodeStart := done, done := done, obs := obs, curRet := s.curRet + rew, curTrue := s.curTrue + true_, itLen := s.itLen + 1, epLen := s.epLen + 1 }
  let s :=
    if done then
      let ret := match info with
        | some r => if c.gail then s.curRet else r
        | none => s.curRet
      let tru := match info with
        | some r => r
        | none => s.curTrue
      { s with epRets := s.epRets ++ [ret], epTrues := s.epTrues ++ [tru], epLens := s.epLens ++ [s.epLen], curRet := 0, curTrue := 0, epLen := 0, obs := if c.vec then s.obs else c.reset s.step }
    else s
  { s with step := s.step + 1 }

/-- Lines 145-209: from writing the observation to the end of the loop body.  Besides what was yielded, the state to go on with, or none after `return`. -/
def act (c : Cfg O A S K) (s : St O A S K) (a : A) (v : K) : List (Seg O A K) × Option (St O A S K) :=
  let i := s.step % c.horizon
  let s := { s with pre := s.pre.set i ⟨s.obs, v, a, s.episodeStart⟩ }
  let ca := c.clip a
  let (obs, r, done, info) := c.env s.step ca
  let rew := if c.gail then c.giver s.step s.obs ca else r
  if c.go s.step then ([], some (finish c s obs rew r done info)) else ([seg s v false], none)

/-- One turn of the loop (lines 113-209).  A zero horizon divides by zero (line 145). -/
def pass (c : Cfg O A S K) (s : St O A S K) : Py (List (Seg O A K) × Option (St O A S K)) :=
  if c.horizon = 0 then .error .zeroDivision else
    let (a, v, states) := c.pol s.step s.obs s.states s.done
    let s := { s with states := states }
    if 0 < s.step ∧ s.step % c.horizon = 0 then
      let (y, n) := act c (clear s) a (c.val s.step s.obs)
      .ok (seg s v true :: y, n)
    else .ok (act c s a v)

/-- What was yielded in the first `n` turns of the loop, and the state then (none if the generator has returned). -/
def run (c : Cfg O A S K) : ℕ → Py (List (Seg O A K) × Option (St O A S K))
  | 0 => .ok ([], some (start c))
  | n + 1 => do
    let (ys, s) ← run c n
    match s with
    | none => .ok (ys, none)
    | some s =>
      let (y, s') ← pass c s
      .ok (ys ++ y, s')

end Neorl.Traj
