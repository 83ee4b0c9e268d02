import Verif.Py
import Mathlib.Analysis.SpecialFunctions.Log.Basic
import Mathlib.Analysis.SpecialFunctions.Exp

/-!
# Cooling schedules of simulated annealing

Model of `temp`, `neorl/evolu/sa.py` lines 215-238, over the real numbers.
-/

set_option linter.unusedSectionVars false
set_option linter.unusedVariables false

namespace Neorl.Cooling

/-- `cooling == 'fast'`, lines 220-222. -/
noncomputable def fast (Tmax Tmin : ℝ) (steps step : ℕ) : ℝ := Tmax * Real.exp (-Real.log (Tmax / Tmin) * step / steps)

/-- `cooling == 'boltzmann'`, lines 223-224. -/
noncomputable def boltzmann (Tmax : ℝ) (step : ℕ) : ℝ := Tmax / Real.log (step + 1)

/-- `cooling == 'cauchy'`, lines 225-226. -/
noncomputable def cauchy (Tmax : ℝ) (step : ℕ) : ℝ := Tmax / (step + 1)

/-- `cooling == 'equilibrium'`, lines 228-232; `a` is `np.mean(self.accepts)` (a percentage, see line 350) and `sigma` the standard
deviation of the accepted energies. -/
noncomputable def equilibrium (Tmin lmbda a sigma T : ℝ) : ℝ :=
  let g := 4 * a * (1 - a) ^ 2 / (2 - a) ^ 2
  max (1 / (1 / T + lmbda * (1 / sigma) * (T / sigma) ^ 2 * g)) Tmin

/-- The acceptance number `np.exp(dE/T)`, line 301. -/
noncomputable def accP (dE T : ℝ) : ℝ := Real.exp (dE / T)

end Neorl.Cooling
