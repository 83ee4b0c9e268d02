import Verif.Py

/-!
# Latin hypercube design

`neorl/hybrid/ngacore/Latin.py` lines 24-40 (the copy in `neorl/hybrid/nhhocore/Latin.py` is the same code).
-/

set_option linter.unusedSectionVars false
set_option linter.unusedVariables false

namespace Neorl.Latin

section
variable {K : Type} [Field K] [LinearOrder K] [IsStrictOrderedRing K]

/-- `np.random.uniform(low=j*d, high=(j+1)*d)`, lines 30-31, from a draw `u` in `[0, 1)`. -/
def cell (d : K) (u : ℕ → K) (j : ℕ) : K := (j : K) * d + (((j : K) + 1) * d - (j : K) * d) * u j

/-- Lines 29-32: the shuffled column `temp`. -/
def column (N : ℕ) (u : ℕ → K) (shuffle : List K → List K) : List K := shuffle ((List.range N).map (cell (1 / (N : K)) u))

/-- `latin(N, D, lower_bound, upper_bound)`, lines 24-40, with `bounds` the pairs of lower and upper bounds (`D` of them), `u i j` the draws and
`shuffle i` the permutation used for column `i`.  `1.0/N` raises for `N = 0`; `none` is the returned `None`. -/
def latin (N : ℕ) (bounds : List (K × K)) (u : ℕ → ℕ → K) (shuffle : ℕ → List K → List K) : Py (Option (List (List K))) :=
  if N = 0 then .error .zeroDivision
  else
    let cols := (List.range bounds.length).map (fun i => column N (u i) (shuffle i))
    let result := (List.range N).map (fun j => cols.map (fun c => c.getD j 0))
    if bounds.any (fun b => decide (b.2 < b.1)) then .ok none
    else .ok (some (result.map (fun row => List.zipWith (fun x b => x * (b.2 - b.1) + b.1) row bounds)))

end
end Neorl.Latin
