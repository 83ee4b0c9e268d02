import Verif.Py
import Mathlib.Tactic.Linarith
import Mathlib.Tactic.ByContra

/-!
# Checking a user's environment

Model of `neorl/rl/baselines/shared/env_checker.py` (`check_env` and its helpers), with the parts of `DummyVecEnv` and `VecCheckNan` that it uses.

The environment is a state machine whose methods may raise.  Python types are names (`Ty`), `observation_space.contains` is a function.  Texts of warnings are replaced by names.
-/

set_option linter.unusedSectionVars false
set_option linter.unusedVariables false

namespace Neorl.EnvCheck

/-- The Python types the checks tell apart. -/
inductive Ty
  | int | bool | npInt | npBool | float | npFloat64 | npFloat32 | ndarray | tuple | dict | other
  deriving DecidableEq, Repr

/-- `isinstance(x, int)`; `bool` is a subclass, numpy integers are not. -/
def Ty.isInt : Ty → Bool
  | .int | .bool => true
  | _ => false

/-- `isinstance(x, (float, int))`; `np.float64` is a subclass of `float`, `np.float32` is not. -/
def Ty.isReal : Ty → Bool
  | .int | .bool | .float | .npFloat64 => true
  | _ => false

/-- `gym.spaces`; `other` stands for `MultiDiscrete`, `MultiBinary` and user-defined spaces. -/
inductive Kind
  | discrete | box | dict | tuple | other
  deriving DecidableEq, Repr

/-- Warnings. -/
inductive Warn
  | dictObs | tupleObs | imageType | imageRange | imageSize | oddShape | actionRange | noRender | nan
  deriving DecidableEq, Repr

/-- What `env.step` returns: the length of the tuple, the observation, the reward, its type, the signal and its type, the type of `info`. -/
structure Data (O R : Type) where
  len : ℕ
  obs : O
  rew : R
  rewTy : Ty
  done : Bool
  doneTy : Ty
  infoTy : Ty

/-- An environment. `shape`, `uint8`, `lowHigh` describe a `Box` of observations, `act` the bounds of a `Box` of actions (`none` for other spaces). `goalOK d` is
`reward == compute_reward(...)`. `fits` says whether an observation can be stored in the buffer of `DummyVecEnv`; `badO`, `badR`, `badA` whether a value has `nan` or `inf`. -/
structure Env (E O R A : Type) where
  isEnv : Bool
  hasObs : Bool
  hasAct : Bool
  obsIsSpace : Bool
  actIsSpace : Bool
  goal : Bool
  kind : Kind
  contains : O → Bool
  ty : O → Ty
  shape : List ℕ
  uint8 : Bool
  lowHigh : List (ℚ × ℚ)
  act : Option (List (ℚ × ℚ))
  renderModes : Option (List String)
  render : String → Py Unit
  e0 : E
  reset : E → Py (E × O)
  step : E → A → Py (E × Data O R)
  sample : ℕ → A
  goalOK : Data O R → Bool
  fits : O → Bool
  badO : O → Bool
  badR : R → Bool
  badA : A → Bool

variable {E O R A : Type}

/-- `_enforce_array_obs`, lines 11-16. -/
def enforceArray (k : Kind) : Bool := !(k = .dict || k = .tuple)

/-- `_check_image_input`, lines 19-40. -/
def imageWarnings (v : Env E O R A) : List Warn :=
  (if v.uint8 then [] else [.imageType]) ++ (if v.lowHigh.any fun p => decide (p.1 ≠ 0) || decide (p.2 ≠ 255) then [.imageRange] else []) ++
  (if v.shape.getD 0 0 < 36 || v.shape.getD 1 0 < 36 then [.imageSize] else [])

/-- The warnings of `check_env`, lines 193-211, with `_check_unsupported_obs_spaces`, lines 43-59. -/
def spaceWarnings (v : Env E O R A) : List Warn :=
  (if v.kind = .dict && !v.goal then [.dictObs] else []) ++ (if v.kind = .tuple then [.tupleObs] else []) ++
  (if v.kind = .box && v.shape.length == 3 then imageWarnings v else []) ++
  (if v.kind = .box && v.shape.length != 1 && v.shape.length != 3 then [.oddShape] else []) ++
  (match v.act with
    | some ps => if ps.any fun p => decide (|p.1| ≠ |p.2|) || decide (|p.1| > 1) || decide (|p.2| > 1) then [.actionRange] else []
    | none => [])

/-- `assert`. -/
def pyAssert (b : Bool) : Py Unit := if b then .ok () else .error .assertion

/-- An `assert` under a condition. -/
def assertIf (c b : Bool) : Py Unit := if c then pyAssert b else .ok ()

/-- `_check_obs`, lines 70-89. -/
def checkObs (v : Env E O R A) (o : O) : Py Unit := do
  if v.kind ≠ .tuple then pyAssert (decide (v.ty o ≠ .tuple))
  if v.kind = .discrete then pyAssert (v.ty o).isInt
  else if enforceArray v.kind then pyAssert (decide (v.ty o = .ndarray))
  pyAssert (v.contains o)

/-- `_check_returned_values`, lines 92-119; gives the state the environment is left in. -/
def checkReturned (v : Env E O R A) : Py E := do
  let r ← v.reset v.e0
  checkObs v r.2
  let d ← v.step r.1 (v.sample 0)
  pyAssert (d.2.len == 4)
  checkObs v d.2.obs
  pyAssert d.2.rewTy.isReal
  pyAssert (decide (d.2.doneTy = .bool))
  pyAssert (decide (d.2.infoTy = .dict))
  assertIf v.goal (v.goalOK d.2)
  pure d.1

/-- `_check_spaces`, lines 122-135. -/
def checkSpaces (v : Env E O R A) : Py Unit := do
  pyAssert v.hasObs
  pyAssert v.hasAct
  pyAssert v.obsIsSpace
  pyAssert v.actIsSpace

/-- `_check_render`, lines 138-163; `check_env` never sets `headless`. Rendering is taken to leave the state of the environment alone. -/
def checkRender (v : Env E O R A) (warn : Bool) : Py (List Warn) :=
  match v.renderModes with
  | none => .ok (if warn then [.noRender] else [])
  | some ms => do
    forM ms v.render
    pure []

/-- `DummyVecEnv.step_wait` with one environment, `dummy_vec_env.py` lines 41-51: the new state, the observation in the buffer and the data. -/
def dummyStep (v : Env E O R A) (e : E) (a : A) : Py (E × O × Data O R) := do
  let d ← v.step e a
  if d.2.len ≠ 4 then .error .valueError
  else if d.2.done then
    if d.2.infoTy ≠ .dict then .error .typeError
    else do
      let r ← v.reset d.1
      if v.fits r.2 then pure (r.1, r.2, d.2) else .error .valueError
  else if v.fits d.2.obs then pure (d.1, d.2.obs, d.2) else .error .valueError

/-- `_check_nan`, lines 62-67, from step `k` on, with `VecCheckNan` as constructed there: `raise_exception=False`, `warn_once=True`; `warned` is `_user_warned`. -/
def checkNan (v : Env E O R A) : ℕ → ℕ → E → Bool → Py (List Warn)
  | 0, _, _, _ => .ok []
  | n + 1, k, e, warned => do
    let w1 : List Warn := if !warned && v.badA (v.sample k) then [.nan] else []
    let warned1 := warned || v.badA (v.sample k)
    let d ← dummyStep v e (v.sample k)
    let bad := v.badO d.2.1 || v.badR d.2.2.rew
    let w2 : List Warn := if !warned1 && bad then [.nan] else []
    let rest ← checkNan v n (k + 1) d.1 (warned1 || bad)
    pure (w1 ++ w2 ++ rest)

/-- Lines 217-218 of `check_env`. -/
def renderPart (v : Env E O R A) (warn skipRender : Bool) : Py (List Warn) := if skipRender then .ok [] else checkRender v warn

/-- Lines 221-222 of `check_env`. -/
def nanPart (v : Env E O R A) (e : E) : Py (List Warn) := if enforceArray v.kind then checkNan v 10 1 e false else .ok []

/-- `check_env`, lines 166-222: the warnings, or the exception. -/
def checkEnv (v : Env E O R A) (warn skipRender : Bool) : Py (List Warn) := do
  pyAssert v.isEnv
  checkSpaces v
  let w1 := if warn then spaceWarnings v else []
  let e ← checkReturned v
  let w2 ← renderPart v warn skipRender
  let w3 ← nanPart v e
  pure (w1 ++ w2 ++ w3)

end Neorl.EnvCheck
