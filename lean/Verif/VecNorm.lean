import Verif.Py
import Verif.Rms

/-!
# Normalising wrapper

Model of `VecNormalize` (`neorl/rl/baselines/shared/vec_env/vec_normalize.py`).

* One component of the observations: numpy works componentwise, `obs` is the list of this component over the environments.
* The wrapped environments are arbitrary: a run is a list of the answers they give, together with the changes the user makes to the attribute `training`.
* `sq` is the square root (a parameter).  `RunningMeanStd` is `Verif.Rms`.
-/

set_option linter.unusedSectionVars false
set_option linter.unusedVariables false

namespace Neorl.VecNorm

variable {K : Type} [Field K] [LinearOrder K] [IsStrictOrderedRing K]

/-- The arguments of the constructor, vec_normalize.py lines 28-29, `n` is `num_envs` and `eps0` the `epsilon` of `RunningMeanStd`. -/
structure Conf (K : Type) where
  n : ℕ
  normObs : Bool
  normRew : Bool
  clipObs : K
  clipRew : K
  gamma : K
  eps : K
  eps0 : K
  sq : K → K

/-- The attributes, lines 31-43. -/
structure Norm (K : Type) where
  obsR : Rms.State K
  retR : Rms.State K
  ret : List K
  training : Bool
  oldObs : Option (List K)
  oldRews : Option (List K)

/-- `__init__`, lines 28-43. -/
def init (c : Conf K) (training : Bool) : Norm K :=
  { obsR := Rms.init c.eps0, retR := Rms.init c.eps0, ret := List.replicate c.n 0, training := training, oldObs := none, oldRews := none }

/-- `np.clip(v, -b, b)`. -/
def clip (b v : K) : K := min (max v (-b)) b

/-- `normalize_obs`, lines 110-119, one environment. -/
def normObs (c : Conf K) (s : Norm K) (o : K) : K := if c.normObs then clip c.clipObs ((o - s.obsR.mean) / c.sq (s.obsR.var + c.eps)) else o

/-- `normalize_reward`, lines 121-129. -/
def normRew (c : Conf K) (s : Norm K) (r : K) : K := if c.normRew then clip c.clipRew (r / c.sq (s.retR.var + c.eps)) else r

/-- `_update_reward`, lines 105-108. -/
def updateReward (c : Conf K) (rews : List K) (s : Norm K) : Norm K :=
  let ret := List.zipWith (fun a r => a * c.gamma + r) s.ret rews
  { s with ret := ret, retR := Rms.update s.retR ret }

/-- What happens to the wrapper: the wrapped environments answer a reset or a step (observations, rewards, `news`, terminal observations in the infos), or the
user changes `training`. -/
inductive Ev (K : Type)
  | reset (obs : List K)
  | step (obs rews : List K) (news : List Bool) (term : List (Option K))
  | train (b : Bool)

/-- What the wrapper returns. -/
inductive Out (K : Type)
  | obs (l : List K)
  | step (obs rews : List K) (news : List Bool) (term : List (Option K))
  | nothing

/-- `self.ret[news] = 0`, line 102. -/
def zeroNews (ret : List K) (news : List Bool) : List K := List.zipWith (fun a (b : Bool) => if b then 0 else a) ret news

/-- `step_wait`, lines 82-103. -/
def stepWait (c : Conf K) (s : Norm K) (obs rews : List K) (news : List Bool) (term : List (Option K)) : Norm K × Out K :=
  let s1 := { s with oldObs := some obs, oldRews := some rews }
  let s2 := if s1.training then { s1 with obsR := Rms.update s1.obsR obs } else s1
  let o := obs.map (normObs c s2)
  let s3 := if s2.training then updateReward c rews s2 else s2
  let r := rews.map (normRew c s3)
  ({ s3 with ret := zeroNews s3.ret news }, .step o r news term)

/-- `reset`, lines 144-153. -/
def reset (c : Conf K) (s : Norm K) (obs : List K) : Norm K × Out K :=
  let s1 := { s with oldObs := some obs, ret := List.replicate c.n 0 }
  let s2 := if s1.training then updateReward c s1.ret s1 else s1
  (s2, .obs (obs.map (normObs c s2)))

/-- One event. -/
def exec (c : Conf K) (s : Norm K) : Ev K → Norm K × Out K
  | .reset obs => reset c s obs
  | .step obs rews news term => stepWait c s obs rews news term
  | .train b => ({ s with training := b }, .nothing)

/-- A run. -/
def run (c : Conf K) : Norm K → List (Ev K) → Norm K × List (Out K)
  | s, [] => (s, [])
  | s, e :: es => ((run c (exec c s e).1 es).1, (exec c s e).2 :: (run c (exec c s e).1 es).2)

/-- `get_original_obs`, lines 131-136. -/
def getOriginalObs (s : Norm K) : Py (List K) := match s.oldObs with | some l => .ok l | none => .error .attributeError

/-- `get_original_reward`, lines 138-142. -/
def getOriginalReward (s : Norm K) : Py (List K) := match s.oldRews with | some l => .ok l | none => .error .attributeError

/-! ### Saving and loading -/

/-- A wrapper object with its wrapped environment, if any: `shape` is the number of components of the statistics. -/
structure Obj (K : Type) where
  venv : Option (ℕ × ℕ)
  shape : ℕ
  s : Norm K

/-- `__getstate__` and `__setstate__`, lines 45-66: the environments and `ret` are dropped (an attribute that does not exist is `[]` here). -/
def pickled (o : Obj K) : Obj K := { o with venv := none, s := { o.s with ret := [] } }

/-- `set_venv`, lines 68-80; `v` is the number of environments and the shape of the observations. -/
def setVenv (v : ℕ × ℕ) (o : Obj K) : Obj K × Py Unit :=
  match o.venv with
  | some _ => (o, .error .valueError)
  | none =>
    let o1 := { o with venv := some v }
    if o1.shape ≠ v.2 then (o1, .error .valueError)
    else ({ o1 with s := { o1.s with ret := List.replicate v.1 0 } }, .ok ())

/-! ### Copying the statistics to another environment -/

/-- A wrapper in a chain: whether it is a `VecNormalize`, and its attributes `obs_rms`, `ret_rms` (for other wrappers, whatever has been set under these names). -/
structure Wrap (σ : Type) where
  isNorm : Bool
  stats : σ
deriving DecidableEq

/-- `unwrap_vec_normalize`, vec_env/__init__.py lines 17-27: the chain of wrappers, outermost first. -/
def unwrap {σ : Type} : List (Wrap σ) → Option (Wrap σ)
  | [] => none
  | w :: ws => if w.isNorm then some w else unwrap ws

/-- The loop of `sync_envs_normalization`, vec_env/__init__.py lines 43-51 (the attributes it may set on an innermost environment, just before the assertion fails,
are left out). -/
def sync {σ : Type} : List (Wrap σ) → List (Wrap σ) → List (Wrap σ) × Py Unit
  | [], ev => (ev, .ok ())
  | _ :: _, [] => ([], .error .assertion)
  | w :: ws, e :: es => ((if w.isNorm then { e with stats := w.stats } else e) :: (sync ws es).1, (sync ws es).2)

/-- `sync_envs_normalization`, lines 31-51: nothing is done if the outermost wrapper of the training environment is the one the off-policy learners put around a vectorised environment of one
(`_UnvecWrapper`, base_class.py lines 88 and 147). -/
def syncTop {σ : Type} (unvec : Bool) (ws es : List (Wrap σ)) : List (Wrap σ) × Py Unit := if unvec then (es, .ok ()) else sync ws es

end Neorl.VecNorm
