import Verif.Classic
import Mathlib.Analysis.SpecialFunctions.Trigonometric.Inverse

/-!
# The DTLZ2 multi-objective benchmark

`neorl/benchmarks/dtlz.py`: `DTLZ2` with its superclasses `DTLZ` and `Problem`: construction,
`evaluate` of one or several rows, `pareto_front` with its cache, `nadir_point` and `ideal_point`.

Real arithmetic; `cos`, `sin`, `sqrt` are Mathlib's.  Not modelled: the automatic differentiation
branch of `evaluate` and `return_values_of` other than the default (there are no constraints, so the
default returns the objectives only).
-/

set_option linter.unusedSectionVars false
set_option linter.unusedVariables false

namespace Neorl.DTLZ

open Real Neorl.Classic

/-- What the constructors store that is used afterwards: `n_var`, `n_obj`, `self.k`, and the cache
`_pareto_front`. -/
structure Problem where
  nVar : ℕ
  nObj : ℕ
  k : ℤ
  front : Option (List (List ℝ))

/-- `DTLZ.__init__` (`dtlz.py` 358-368) with `n_var` and `k` possibly `None`; zero counts as not given,
as in Python. -/
def mk (nVar : Option ℕ) (nObj : ℕ) (k : Option ℕ) : Py Problem :=
  match nVar with
  | some (n + 1) => .ok ⟨n + 1, nObj, (n + 1 : ℤ) - nObj + 1, none⟩
  | _ => match k with
    | some (j + 1) => .ok ⟨j + 1 + nObj - 1, nObj, j + 1, none⟩
    | _ => .error .valueError

/-- `DTLZ2(n_var=…, n_obj=…, k=…)` (`dtlz.py` 391-392): an argument not given has its default. -/
def dtlz2 (nVar : Option (Option ℕ)) (nObj : Option ℕ) (k : Option ℕ) : Py Problem :=
  mk (nVar.getD (some 10)) (nObj.getD 3) k

/-- `g2` of one row (`dtlz.py` 373-374). -/
noncomputable def g2 (xm : List ℝ) : ℝ := sumOf (fun a => (a - 0.5) ^ 2) xm

/-- `obj_func` of one row with `alpha = 1` (`dtlz.py` 376-388), for a row `X_` of `n_obj - 1` entries:
objective `i` is `1 + g` times the cosines of all but the last `i` entries, times the sine of entry
`len - i` if `i > 0`. -/
noncomputable def objective (X : List ℝ) (g : ℝ) (i : ℕ) : ℝ :=
  (1 + g) * prodOf (fun a => cos (a * π / 2)) (X.take (X.length - i))
    * (if 0 < i then sin (X.getD (X.length - i) 0 * π / 2) else 1)

/-- `DTLZ2._evaluate` of one row (`dtlz.py` 397-400).  For `n_obj ≤ n_var + 1`, where the slice `X_` has
`n_obj - 1` entries. -/
noncomputable def evalRow (P : Problem) (x : List ℝ) : List ℝ :=
  (List.range P.nObj).map (objective (x.take (P.nObj - 1)) (g2 (x.drop (P.nObj - 1))))

/-- `Problem.evaluate` of a matrix (`dtlz.py` 157-301): a wrong number of columns raises. -/
noncomputable def evaluate (P : Problem) (X : List (List ℝ)) : Py (List (List ℝ)) :=
  if X.all (fun x => x.length == P.nVar) then .ok (X.map (evalRow P)) else .error .valueError

/-- `Problem.evaluate` of one vector: made a one-row matrix, the first row of the result returned
(`dtlz.py` 188-190, 288-292). -/
noncomputable def evaluate1 (P : Problem) (x : List ℝ) : Py (List ℝ) := do
  let F ← evaluate P [x]
  .ok (F.headD [])

/-- `np.linalg.norm`. -/
noncomputable def norm (v : List ℝ) : ℝ := √(sumOf (fun a => a ^ 2) v)

/-- `generic_sphere` (`dtlz.py` 402-403). -/
noncomputable def genericSphere (refs : List (List ℝ)) : List (List ℝ) :=
  refs.map fun v => v.map fun a => a / norm v

/-- `pareto_front` (`dtlz.py` 132-143) called with `ref_dirs` or without arguments:
`_calc_pareto_front` needs one (`dtlz.py` 394-395), and is only called when nothing is cached. -/
noncomputable def paretoFront (P : Problem) (refs : Option (List (List ℝ))) :
    Py (List (List ℝ) × Problem) :=
  match P.front with
  | some F => .ok (F, P)
  | none => match refs with
    | none => .error .typeError
    | some r => .ok (genericSphere r, { P with front := some (genericSphere r) })

/-- Column-wise fold of a matrix: `np.max(…, axis=0)` with `op = max`. -/
noncomputable def columns (op : ℝ → ℝ → ℝ) : List (List ℝ) → Py (List ℝ)
  | [] => .error .valueError
  | v :: t => .ok (t.foldl (List.zipWith op) v)

/-- `nadir_point` (`dtlz.py` 111-120). -/
noncomputable def nadirPoint (P : Problem) : Py (List ℝ) := do
  let F ← paretoFront P none
  columns max F.1

/-- `ideal_point` (`dtlz.py` 122-130). -/
noncomputable def idealPoint (P : Problem) : Py (List ℝ) := do
  let F ← paretoFront P none
  columns min F.1

end Neorl.DTLZ
