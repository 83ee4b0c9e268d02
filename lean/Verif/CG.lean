import Mathlib.Data.Matrix.Mul
import Mathlib.Algebra.Order.Field.Basic

/-!
# Conjugate gradients

Model of `conjugate_gradient` (`neorl/rl/baselines/shared/cg.py`), which TRPO and GAIL use for the natural gradient.  Arithmetic is exact, over any ordered field;
the callback and the printing are left out.  A division by zero makes numpy return a vector of nan/inf: this is `none`.  The second division (`mu_val`) has a zero
denominator only when the first one has (`Verif/Props/CG.lean`, `guard`).
-/

set_option linter.unusedSectionVars false
set_option linter.unusedVariables false

namespace Neorl.CG

section
variable {K : Type} [Field K] [LinearOrder K] [IsStrictOrderedRing K] {n : ℕ}

/-- The variables of the loop: `first_basis_vect`, `residual`, `x_var`, `residual_dot_residual`, cg.py lines 18-21. -/
structure State (K : Type) (n : ℕ) where
  p : Fin n → K
  r : Fin n → K
  x : Fin n → K
  rr : K

/-- cg.py lines 18-21. -/
def init (b : Fin n → K) : State K n := { p := b, r := b, x := 0, rr := dotProduct b b }

/-- One pass of the loop without the test, cg.py lines 33-41. -/
def iter (f : (Fin n → K) → Fin n → K) (s : State K n) : Option (State K n) :=
  let z := f s.p
  if dotProduct s.p z = 0 then none
  else
    let v := s.rr / dotProduct s.p z
    let x := s.x + v • s.p
    let r := s.r - v • z
    let rr := dotProduct r r
    let mu := rr / s.rr
    some { p := r + mu • s.p, r := r, x := x, rr := rr }

/-- The loop with the test `residual_dot_residual < residual_tol`, cg.py lines 28-43. -/
def loop (f : (Fin n → K) → Fin n → K) (tol : K) : ℕ → State K n → Option (State K n)
  | 0, s => some s
  | k + 1, s =>
    match iter f s with
    | none => none
    | some s' => if s'.rr < tol then some s' else loop f tol k s'

/-- `conjugate_gradient(f_ax, b_vec, cg_iters, residual_tol)`, cg.py lines 4-49. -/
def cg (f : (Fin n → K) → Fin n → K) (b : Fin n → K) (iters : ℕ) (tol : K) : Option (Fin n → K) := (loop f tol iters (init b)).map State.x

end

end Neorl.CG
