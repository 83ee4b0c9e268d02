import Verif.Py
import Mathlib.Analysis.SpecialFunctions.Pow.Real
import Mathlib.Algebra.BigOperators.Group.List.Basic
import Mathlib.Tactic.Linarith
import Mathlib.Tactic.Ring
import Mathlib.Tactic.FieldSimp

/-!
# Statistics and gradient steps shared by several processes

Model of `neorl/rl/baselines/shared/mpi_moments.py`, `mpi_running_mean_std.py` and `mpi_adam.py`.

A *world* is the list of what the processes hold, rank 0 first.  `Allreduce` with `MPI.SUM` gives every process the sum of the messages; all processes compute
the same from it, so results are modelled once.  A message is one flat array in the code (sums followed by a count); its parts are kept apart here.  An array is
a list of rows, a row has one number for each of `d` entries; only `axis=0`, the default, is modelled.  Numbers are real; the conversions to `float32` are left
out.  A division by a count of zero (no process has a row; numpy gives `nan`) is excluded by the theorems.  `mpi_adam.py` and `mpi_running_mean_std.py` import
`shared.tf_util` by a path that does not exist in the package, so they cannot be imported as they are.
-/

set_option linter.unusedSectionVars false
set_option linter.unusedVariables false

namespace Neorl.Mpi

open Real

/-- A flat array of `d` numbers. -/
abbrev V (d : ℕ) := Fin d → ℝ

variable {d : ℕ}

/-- `arr.sum(axis=0)`. -/
def colSum (rows : List (V d)) : V d := fun j => (rows.map fun r => r j).sum

/-- `comm.Allreduce(local, total, op=MPI.SUM)`. -/
def allreduce (msgs : List (V d)) : V d := colSum msgs

/-- `Allreduce` of a single number. -/
def allreduce1 (msgs : List ℝ) : ℝ := msgs.sum

/-- `mpi_mean`, `mpi_moments.py` lines 7-28: mean and count. -/
noncomputable def mpiMean (world : List (List (V d))) : V d × ℝ :=
  let s := allreduce (world.map colSum)
  let n := allreduce1 (world.map fun rows => (rows.length : ℝ))
  (fun j => s j / n, n)

open Classical in
/-- `mpi_moments`, `mpi_moments.py` lines 31-52: mean, standard deviation and count. -/
noncomputable def mpiMoments (world : List (List (V d))) : Py (V d × V d × ℝ) :=
  let p := mpiMean world
  let q := mpiMean (world.map fun rows => rows.map fun (x : V d) j => (x j - p.1 j) ^ 2)
  if q.2 = p.2 then .ok (p.1, fun j => √(q.1 j), p.2) else .error .assertion

/-- The TensorFlow variables of `RunningMeanStd`, `mpi_running_mean_std.py` lines 17-32. -/
structure Rms (d : ℕ) where
  sum : V d
  sumsq : V d
  count : ℝ

/-- `__init__`, lines 17-31. -/
def rmsInit (eps : ℝ) : Rms d := { sum := fun _ => 0, sumsq := fun _ => eps, count := eps }

/-- `self.mean`, line 34. -/
noncomputable def Rms.mean (s : Rms d) : V d := fun j => s.sum j / s.count

/-- `self.std`, lines 35-36. -/
noncomputable def Rms.std (s : Rms d) : V d := fun j => √(max (s.sumsq j / s.count - s.mean j ^ 2) (1 / 100))

/-- `update`, lines 46-59, with `incfiltparams`, lines 38-44. -/
def rmsUpdate (s : Rms d) (world : List (List (V d))) : Rms d :=
  let a := allreduce (world.map colSum)
  let b := allreduce (world.map fun rows => colSum (rows.map fun (x : V d) j => x j ^ 2))
  let n := allreduce1 (world.map fun rows => (rows.length : ℝ))
  { sum := fun j => s.sum j + a j, sumsq := fun j => s.sumsq j + b j, count := s.count + n }

/-- Parameters of `MpiAdam`, `mpi_adam.py` lines 9-10. -/
structure Adam where
  beta1 : ℝ
  beta2 : ℝ
  eps : ℝ
  scale : Bool

/-- What a process holds: the parameters of its network and the two moving averages, lines 29-34. -/
@[ext] structure Worker (d : ℕ) where
  theta : V d
  m : V d
  v : V d

/-- All processes; they call `update` together, so `self.step` is the same everywhere. -/
structure World (d : ℕ) where
  ws : List (Worker d)
  step : ℕ

open Classical in
/-- `check_synced`, lines 72-83: every process compares its parameters with those of rank 0; the assertion of one process is taken as the end of the run. -/
noncomputable def checkSynced : List (Worker d) → Py Unit
  | [] => .ok ()
  | r :: ws => if ∀ w ∈ ws, w.theta = r.theta then .ok () else .error .assertion

/-- The arithmetic of `update` in one process, lines 57-62; `t` is `self.step` after line 55. -/
noncomputable def adamStep (c : Adam) (lr : ℝ) (t : ℕ) (g : V d) (w : Worker d) : Worker d :=
  let size := lr * √(1 - c.beta2 ^ t) / (1 - c.beta1 ^ t)
  let m : V d := fun j => c.beta1 * w.m j + (1 - c.beta1) * g j
  let v : V d := fun j => c.beta2 * w.v j + (1 - c.beta2) * (g j * g j)
  { theta := fun j => w.theta j + -size * m j / (√(v j) + c.eps), m := m, v := v }

/-- `update`, lines 40-62. -/
noncomputable def update (c : Adam) (W : World d) (grads : List (V d)) (lr : ℝ) : Py (World d) :=
  match (if W.step % 100 = 0 then checkSynced W.ws else .ok ()) with
  | .error e => .error e
  | .ok () =>
    let total := allreduce grads
    let g : V d := if c.scale then fun j => total j / (W.ws.length : ℝ) else total
    .ok { ws := W.ws.map (adamStep c lr (W.step + 1) g), step := W.step + 1 }

/-- A training run: the gradients of all processes and the learning rate of every update. -/
noncomputable def run (c : Adam) (W : World d) : List (List (V d) × ℝ) → Py (World d)
  | [] => .ok W
  | u :: us =>
    match update c W u.1 u.2 with
    | .error e => .error e
    | .ok W' => run c W' us

/-- `sync`, lines 64-70: the parameters (not the averages) of rank 0 are sent to all. -/
def sync (W : World d) : World d :=
  match W.ws with
  | [] => W
  | r :: _ => { W with ws := W.ws.map fun w => { w with theta := r.theta } }

end Neorl.Mpi
