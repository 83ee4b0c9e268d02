import Verif.Py
import Verif.MonLoad

/-!
# Making monitored environments: seeds and log files

Model of `neorl/rl/baselines/shared/cmd_util.py` lines 18-154: `make_vec_env`, `make_atari_env`, `make_mujoco_env`, `make_robotics_env`.  An environment is what the
functions do to it: how it was made, its seeds, its log file and whether the user's wrapper is around it.  The Atari wrappers are in the models of C104 and C149, the contents of
log files in C99 and C133.  `isdir k` says whether the folder of the logs has a directory named `k`, which changes the name of the file (`MonLoad.fileName`).
-/

set_option linter.unusedSectionVars false
set_option linter.unusedVariables false

namespace Neorl.MakeEnv

open Neorl.InputFile (Str)

/-- An environment made: seeds of the environment and of its action space, log file, whether the keyword arguments reached the constructor, whether a warning
was given, whether the wrapper is around it. -/
structure Made where
  seed : Option ℤ
  actSeed : Option ℤ
  file : Option (List Str × Str)
  kwargs : Bool
  warned : Bool
  wrapped : Bool
deriving DecidableEq, Repr

/-- `Monitor(env, os.path.join(dir, str(rank)))`, monitor.py lines 38-44. -/
def logFile (isdir : ℕ → Bool) (dir : List Str) (rank : ℕ) : List Str × Str := MonLoad.fileName (isdir rank) dir (Nat.toDigits 10 rank)

/-- `make_env(rank)()` of `make_vec_env`, lines 43-65; `byName` if `env_id` is a text, `nkw` is `len(env_kwargs)`. -/
def vecOne (byName : Bool) (nkw : ℕ) (seed : Option ℤ) (isdir : ℕ → Bool) (dir : Option (List Str)) (wrapper : Bool) (rank : ℕ) : Made :=
  { seed := seed.map fun s => s + rank, actSeed := seed.map fun s => s + rank, file := dir.map fun d => logFile isdir d rank, kwargs := !byName,
    warned := byName && decide (nkw > 0), wrapped := wrapper }

/-- `make_vec_env`, lines 18-72. -/
def makeVec (byName : Bool) (nkw n : ℕ) (seed : Option ℤ) (start : ℕ) (isdir : ℕ → Bool) (dir : Option (List Str)) (wrapper : Bool) : List Made :=
  (List.range n).map fun i => vecOne byName nkw seed isdir dir wrapper (i + start)

/-- `make_atari_env`, lines 75-111: the seed of the global generators and the environments; `dir` is `logger.get_dir()`. -/
def makeAtari (n : ℕ) (seed : ℤ) (start : ℕ) (isdir : ℕ → Bool) (dir : Option (List Str)) : ℤ × List Made :=
  (seed, (List.range n).map fun i =>
    { seed := some (seed + ((i + start : ℕ) : ℤ)), actSeed := none, file := dir.map fun d => logFile isdir d (i + start), kwargs := false, warned := false, wrapped := true })

/-- `make_mujoco_env`, lines 114-127, in the process of rank `mpi`; without a directory `os.path.join(None, '0')` is a `TypeError`. -/
def makeMujoco (mpi : ℕ) (seed : ℤ) (isdir : ℕ → Bool) (dir : Option (List Str)) : Py (ℤ × Made) :=
  match dir with
  | none => .error .typeError
  | some d => .ok (seed + 10000 * mpi, { seed := some seed, actSeed := none, file := some (logFile isdir d 0), kwargs := false, warned := false, wrapped := false })

/-- `make_robotics_env`, lines 130-154. -/
def makeRobotics (seed : ℤ) (rank : ℕ) (isdir : ℕ → Bool) (dir : Option (List Str)) : ℤ × Made :=
  (seed, { seed := some seed, actSeed := none, file := dir.map fun d => logFile isdir d rank, kwargs := false, warned := false, wrapped := true })

end Neorl.MakeEnv
