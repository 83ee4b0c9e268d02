import Mathlib.Algebra.Order.Field.Basic
import Mathlib.Algebra.BigOperators.Group.List.Basic
import Mathlib.Tactic.FieldSimp
import Mathlib.Tactic.Ring
import Mathlib.Tactic.Linarith
import Mathlib.Tactic.Positivity

/-!
# Running mean and variance

`neorl/rl/baselines/shared/running_mean_std.py` lines 4-37, one component of the arrays (numpy works componentwise).
Batches are non-empty: `np.mean` of an empty array is `nan`.
-/

set_option linter.unusedSectionVars false
set_option linter.unusedVariables false

namespace Neorl.Rms

variable {K : Type} [Field K] [LinearOrder K] [IsStrictOrderedRing K]

/-- `np.mean(arr, axis=0)`, line 19. -/
def npMean (l : List K) : K := l.sum / l.length

/-- `np.var(arr, axis=0)`, line 20: mean of the squared deviations from the mean. -/
def npVar (l : List K) : K := (l.map (fun x => (x - npMean l) ^ 2)).sum / l.length

/-- The attributes of `RunningMeanStd`, lines 13-15. -/
structure State (K : Type) where
  mean : K
  var : K
  count : K

/-- `__init__`, lines 5-15. -/
def init (eps : K) : State K := { mean := 0, var := 1, count := eps }

/-- `update_from_moments`, lines 23-37. -/
def updateFromMoments (s : State K) (bm bv bc : K) : State K :=
  let delta := bm - s.mean
  let tot := s.count + bc
  let newMean := s.mean + delta * bc / tot
  let ma := s.var * s.count
  let mb := bv * bc
  let m2 := ma + mb + delta ^ 2 * s.count * bc / (s.count + bc)
  { mean := newMean, var := m2 / (s.count + bc), count := bc + s.count }

/-- `update`, lines 17-21. -/
def update (s : State K) (l : List K) : State K := updateFromMoments s (npMean l) (npVar l) l.length

/-- A stream of batches. -/
def run (eps : K) (bs : List (List K)) : State K := bs.foldl update (init eps)

/-! ### Lemmas -/

/-- Sum of squared deviations from any centre. -/
theorem sum_sq_dev (l : List K) (m : K) : (l.map (fun x => (x - m) ^ 2)).sum = (l.map (fun x => x ^ 2)).sum - 2 * m * l.sum + l.length * m ^ 2 := by
  induction l with
  | nil => simp
  | cons a l ih =>
    simp only [List.map_cons, List.sum_cons, ih, List.length_cons, Nat.cast_add, Nat.cast_one]
    ring

theorem npVar_eq {l : List K} (h : l ≠ []) : npVar l = (l.map (fun x => x ^ 2)).sum / l.length - npMean l ^ 2 := by
  have hl : (l.length : K) ≠ 0 := by
    have := List.length_pos_iff.2 h
    exact_mod_cast this.ne'
  unfold npVar
  rw [sum_sq_dev]
  unfold npMean
  field_simp
  ring

end Neorl.Rms
