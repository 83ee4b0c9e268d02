import Verif.Py
import Mathlib.Algebra.Order.Field.Basic
import Mathlib.Algebra.Order.Ring.Rat
import Mathlib.Data.List.Sort
import Mathlib.Tactic.FieldSimp
import Mathlib.Tactic.Ring
import Mathlib.Tactic.Linarith
import Mathlib.Tactic.Positivity

/-!
# Schedules

`neorl/rl/baselines/shared/schedules.py`: `linear_interpolation` (38-48), `PiecewiseSchedule` (51-87), `LinearSchedule` (90-108) and the legacy
`Scheduler` with its curves (148-254).  Times are numbers of a linearly ordered field.
-/

set_option linter.unusedSectionVars false
set_option linter.unusedVariables false

namespace Neorl.Schedule

variable {K : Type} [Field K] [LinearOrder K] [IsStrictOrderedRing K]

/-- `linear_interpolation`, lines 38-48. -/
def interp (left right alpha : K) : K := left + alpha * (right - left)

/-- `LinearSchedule.value`, lines 106-108; division by `schedule_timesteps = 0` raises. -/
def linearValue (T final init step : K) : Py K :=
  if T = 0 then .error .zeroDivision else .ok (init + min (step / T) 1 * (final - init))

/-- A pair of consecutive end points contains the time, line 81. -/
def inPiece (step : K) (p : (K × K) × (K × K)) : Bool := decide (p.1.1 ≤ step ∧ step < p.2.1)

/-- The loop of `PiecewiseSchedule.value`, lines 80-83: first matching piece of `zip(endpoints[:-1], endpoints[1:])`. -/
def pieceLoop (step : K) : List ((K × K) × (K × K)) → Option K
  | [] => none
  | p :: ps => if inPiece step p then some (interp p.1.2 p.2.2 ((step - p.1.1) / (p.2.1 - p.1.1))) else pieceLoop step ps

/-- `PiecewiseSchedule.__init__` and `.value`, lines 72-87: the constructor asserts that the times are sorted. -/
def piecewise (endpoints : List (K × K)) (outside : Option K) (step : K) : Py K :=
  if (endpoints.map Prod.fst).Pairwise (· ≤ ·) then
    match pieceLoop step (endpoints.dropLast.zip endpoints.tail) with
    | some v => .ok v
    | none =>
      match outside with
      | none => .error .assertion
      | some o => .ok o
  else .error .assertion

/-! ### The legacy curves, lines 148-211 -/

/-- `constant`, lines 148-155. -/
def constantC (p : K) : K := 1
/-- `linear_schedule`, lines 158-165. -/
def linearC (p : K) : K := 1 - p
/-- `middle_drop`, lines 168-178. -/
def middleDrop (p : K) : K := if 1 - p < 3 / 4 then 3 / 4 * (1 / 10) else 1 - p
/-- `double_linear_con`, lines 181-192. -/
def doubleLinearCon (p : K) : K := if 1 - p * 2 < 1 / 8 then 1 / 8 else 1 - p * 2
/-- `double_middle_drop`, lines 195-209. -/
def doubleMiddleDrop (p : K) : K := if 1 - p < 3 / 4 then (if 1 - p < 1 / 4 then 1 / 4 * (1 / 2) else 3 / 4 * (1 / 10)) else 1 - p

/-- The attributes of `Scheduler`, lines 220-235. -/
structure Sched (K : Type) where
  step : K
  initial : K
  n : K

/-- `Scheduler.value`, lines 237-245: the value, and the scheduler one step further. -/
def Sched.value (curve : K → K) (s : Sched K) : K × Sched K := (s.initial * curve (s.step / s.n), { s with step := s.step + 1 })

/-- `Scheduler.value_steps`, lines 247-254. -/
def Sched.valueSteps (curve : K → K) (s : Sched K) (steps : K) : K := s.initial * curve (steps / s.n)

/-- The values of `k` successive calls. -/
def Sched.values (curve : K → K) : ℕ → Sched K → List K
  | 0, _ => []
  | k + 1, s => (s.value curve).1 :: Sched.values curve k (s.value curve).2

end Neorl.Schedule
